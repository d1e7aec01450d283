import Verif.Lemmas.WarpFrequency
import Verif.Props.C71

/-!
# C125: warping of frequency vectors
-/

namespace Verif.Props.C125

open Verif.WarpFrequency Verif.SpecConv Verif.Spectrum Real

/-- The point `exp(i 2 π f / fs)` of the unit circle that belongs to a frequency. -/
noncomputable def circle (fs : ℕ) (f : ℝ) : ℂ := Complex.exp ((2 * π * f / fs : ℝ) * Complex.I)

/-- The points of the unit circle are mapped by the allpass `(z + λ) / (1 + λ z)`. -/
theorem C125_allpass (fs : ℕ) (hfs : 0 < fs) (lam : ℝ) (hl : |lam| < 1) (f : ℝ) :
    circle fs (warpOne fs lam f) = (circle fs f + lam) / (1 + lam * circle fs f) := by
  unfold circle
  rw [warpOne_eq fs hfs, exp_warpAngle lam hl]

theorem angle_lt {fs : ℕ} (hfs : 0 < fs) (f g : ℝ) :
    2 * π * f / fs < 2 * π * g / fs ↔ f < g := by
  have h1 : (0 : ℝ) < fs := by exact_mod_cast hfs
  rw [div_lt_div_iff_of_pos_right h1, mul_lt_mul_iff_of_pos_left (by positivity)]

theorem angle_inj {fs : ℕ} (hfs : 0 < fs) (f g : ℝ) (h : 2 * π * f / fs = 2 * π * g / fs) :
    f = g := by
  rcases lt_trichotomy f g with h1 | h1 | h1
  · exact absurd h ((angle_lt hfs f g).2 h1).ne
  · exact h1
  · exact absurd h.symm ((angle_lt hfs g f).2 h1).ne

/-- The order of frequencies is kept. -/
theorem C125_order (fs : ℕ) (hfs : 0 < fs) (lam : ℝ) (hl : |lam| < 1) (f g : ℝ) :
    warpOne fs lam f < warpOne fs lam g ↔ f < g := by
  rw [← angle_lt hfs, warpOne_eq fs hfs, warpOne_eq fs hfs,
    (strictMono_warpAngle lam hl).lt_iff_lt, angle_lt hfs]

/-- Zero and half of the sampling rate stay where they are; whole sampling rates are added and signs
are kept. -/
theorem C125_ends (fs : ℕ) (hfs : 0 < fs) (lam : ℝ) (f : ℝ) :
    warpOne fs lam 0 = 0 ∧ warpOne fs lam (fs / 2) = fs / 2 ∧
    warpOne fs lam (f + fs) = warpOne fs lam f + fs ∧ warpOne fs lam (-f) = -warpOne fs lam f := by
  have h1 : (fs : ℝ) ≠ 0 := by positivity
  refine ⟨by simp [warpOne], ?_, ?_, ?_⟩
  · have e : 2 * π * ((fs : ℝ) / 2) / fs = π := by field_simp
    simp [warpOne, e]
  · have e : 2 * π * (f + fs) / fs = 2 * π * f / fs + 2 * π := by field_simp
    simp only [warpOne, e, sin_add_two_pi, cos_add_two_pi]
    ring
  · have e : 2 * π * (-f) / fs = -(2 * π * f / fs) := by ring
    simp only [warpOne, e, sin_neg, cos_neg]
    rw [mul_neg, neg_div, arctan_neg]
    ring

theorem le_iff (fs : ℕ) (hfs : 0 < fs) (lam : ℝ) (hl : |lam| < 1) (f g : ℝ) :
    warpOne fs lam f ≤ warpOne fs lam g ↔ f ≤ g := by
  rw [← not_lt, C125_order fs hfs lam hl, not_lt]

/-- Warping with the opposite factor undoes warping. -/
theorem C125_inverse (fs : ℕ) (hfs : 0 < fs) (lam : ℝ) (hl : |lam| < 1) (f : ℝ) :
    warpOne fs (-lam) (warpOne fs lam f) = f := by
  refine angle_inj hfs _ _ ?_
  rw [warpOne_eq fs hfs, warpOne_eq fs hfs, warpAngle_inverse lam hl]

/-- The range of frequencies up to half of the sampling rate is mapped onto itself. -/
theorem C125_range (fs : ℕ) (hfs : 0 < fs) (lam : ℝ) (hl : |lam| < 1) :
    warpOne fs lam '' Set.Icc 0 ((fs : ℝ) / 2) = Set.Icc 0 ((fs : ℝ) / 2) := by
  have key : ∀ l : ℝ, |l| < 1 → ∀ f ∈ Set.Icc 0 ((fs : ℝ) / 2),
      warpOne fs l f ∈ Set.Icc 0 ((fs : ℝ) / 2) := by
    intro l h f hf
    obtain ⟨e0, e1, -⟩ := C125_ends fs hfs l 0
    constructor
    · rw [← e0, le_iff fs hfs l h]
      exact hf.1
    · rw [← e1, le_iff fs hfs l h]
      exact hf.2
  ext g
  constructor
  · rintro ⟨f, hf, rfl⟩
    exact key lam hl f hf
  · intro hg
    refine ⟨warpOne fs (-lam) g, key (-lam) (by rwa [abs_neg]) g hg, ?_⟩
    have := C125_inverse fs hfs (-lam) (by rwa [abs_neg]) g
    rwa [neg_neg] at this

/-- Below half of the sampling rate a negative factor moves frequencies up (more room for the low
ones), a positive factor moves them down, and zero leaves them where they are. -/
theorem C125_direction (fs : ℕ) (hfs : 0 < fs) (lam : ℝ) (hl : |lam| < 1) (f : ℝ) (h0 : 0 < f)
    (h1 : f < (fs : ℝ) / 2) :
    (lam < 0 → f < warpOne fs lam f) ∧ (0 < lam → warpOne fs lam f < f) ∧
    (lam = 0 → warpOne fs lam f = f) := by
  have hp : (0 : ℝ) < fs := by exact_mod_cast hfs
  have hs : 0 < sin (2 * π * f / fs) := by
    refine sin_pos_of_pos_of_lt_pi (by positivity) ?_
    rw [div_lt_iff₀ hp]
    nlinarith [pi_pos]
  have hd := den_pos lam hl (2 * π * f / fs)
  have hq : 0 < (fs : ℝ) / π := div_pos hp pi_pos
  unfold warpOne
  dsimp only
  refine ⟨fun h => ?_, fun h => ?_, fun h => ?_⟩
  · have : 0 < arctan (-lam * sin (2 * π * f / fs) / (1 + lam * cos (2 * π * f / fs))) :=
      arctan_pos.2 (div_pos (mul_pos (by linarith) hs) hd)
    nlinarith [mul_pos hq this]
  · have : arctan (-lam * sin (2 * π * f / fs) / (1 + lam * cos (2 * π * f / fs))) < 0 :=
      arctan_lt_zero.2 (div_neg_of_neg_of_pos (mul_neg_of_neg_of_pos (by linarith) hs) hd)
    nlinarith [mul_neg_of_pos_of_neg hq this]
  · simp [h]

theorem circle_neg (fs : ℕ) (f : ℝ) : circle fs (-f) = (circle fs f)⁻¹ := by
  unfold circle
  rw [← Complex.exp_neg]
  congr 1
  push_cast
  ring

theorem norm_circle (fs : ℕ) (f : ℝ) : ‖circle fs f‖ = 1 := Complex.norm_exp_ofReal_mul_I _

theorem back (fs : ℕ) (hfs : 0 < fs) (lam : ℝ) (hl : |lam| < 1) (f : ℝ) :
    C71.allpassAt lam (circle fs (-warpOne fs lam f)) = circle fs (-f) := by
  have hl' : |(-lam)| < 1 := by rwa [abs_neg]
  have h := C125_allpass fs hfs (-lam) hl' (-warpOne fs lam f)
  rw [(C125_ends fs hfs (-lam) (warpOne fs lam f)).2.2.2, C125_inverse fs hfs lam hl] at h
  rw [h, C71.allpassAt]
  push_cast
  ring

/-- The vector fits to `transforms.warp`: the spectrum of the complete warped response at the warped
frequency is the spectrum of the response at the frequency.  It also fits to `warp_filter`: a root
on the unit circle goes to the warped frequency. -/
theorem C125_match (fs : ℕ) (hfs : 0 < fs) (lam : ℝ) (hl : |lam| < 1) (x : List ℝ) (f : ℝ) :
    HasSum (fun n => (C71.samples lam x n : ℂ) * circle fs (-warpOne fs lam f) ^ n)
      (∑ n ∈ Finset.range x.length, (x.getD n 0 : ℂ) * circle fs (-f) ^ n) ∧
    Warp.warpRoot lam (circle fs f) = circle fs (warpOne fs lam f) := by
  constructor
  · have h := (C71.C71_frequencies lam hl x).1.2 (circle fs (-warpOne fs lam f))
      (norm_circle _ _).le
    dsimp only at h
    rwa [back fs hfs lam hl] at h
  · rw [C125_allpass fs hfs lam hl, Warp.warpRoot, add_comm]

/-- What the setter demands of a frequency vector. -/
def Valid (f : List ℝ) : Prop := (∀ x ∈ f, 0 ≤ x) ∧ f.Pairwise (· < ·)

theorem pairwise_steps (f : List ℝ) :
    (∀ i < f.length - 1, 0 < f.getD (i + 1) 0 - f.getD i 0) ↔ f.Pairwise (· < ·) := by
  rw [← List.isChain_iff_pairwise, List.isChain_iff_getElem]
  constructor
  · intro h i hi
    have := h i (by omega)
    rw [List.getD_eq_getElem _ _ hi, List.getD_eq_getElem _ _ (by omega)] at this
    linarith
  · intro h i hi
    rw [List.getD_eq_getElem _ _ (by omega), List.getD_eq_getElem _ _ (by omega)]
    linarith [h i (by omega)]

/-- `Spectrum.warp` succeeds exactly if the factor is between -1 and 1 and no frequency is above half
of the sampling rate (up to the tolerance of `np.isclose` for the last one).  Then only the frequency
vector is changed, by the map for single frequencies, and it is valid. -/
theorem C125_spectrum (s : CSpec) (hv : Valid s.freqs) (last : ℝ)
    (hlast : s.freqs.getLast? = some last) (lam : ℝ) (fs : ℕ) (hfs : 0 < fs) :
    warp s lam fs =
      (open Classical in
      if |lam| < 1 ∧ (last ≤ (fs : ℝ) / 2 ∨ isClose ((fs : ℝ) / 2) last) then
        .ok ⟨s.freqs.map (warpOne fs lam), s.data, s.isMagnitude, s.domain, s.scheme, s.edges⟩
      else .error .assertionError) ∧
    (|lam| < 1 → Valid (s.freqs.map (warpOne fs lam))) := by
  have hV : |lam| < 1 → Valid (s.freqs.map (warpOne fs lam)) := by
    intro hl
    constructor
    · intro y hy
      obtain ⟨x, hx, rfl⟩ := List.mem_map.1 hy
      rw [← (C125_ends fs hfs lam 0).1, le_iff fs hfs lam hl]
      exact hv.1 x hx
    · rw [List.pairwise_map]
      exact hv.2.imp fun {a b} h => (C125_order fs hfs lam hl a b).2 h
  refine ⟨?_, hV⟩
  unfold warp
  rw [hlast]
  dsimp only
  by_cases h1 : last ≤ (fs : ℝ) / 2 ∨ isClose ((fs : ℝ) / 2) last
  · rw [if_neg (by tauto)]
    unfold warpFrequencies
    by_cases h2 : |lam| < 1
    · rw [if_neg (not_not.2 h2), if_pos ⟨h2, h1⟩]
      dsimp only
      unfold setFrequencies
      rw [if_neg (not_not.2 (hV h2).1), if_neg (not_not.2 ((pairwise_steps _).2 (hV h2).2))]
    · rw [if_pos h2, if_neg (by tauto)]
  · rw [if_pos (by tauto), if_neg (by tauto)]

/-- The spectrum without frequencies above half of the sampling rate is restored by the opposite
factor. -/
theorem C125_undo (s : CSpec) (hv : Valid s.freqs) (last : ℝ)
    (hlast : s.freqs.getLast? = some last) (lam : ℝ) (hl : |lam| < 1) (fs : ℕ) (hfs : 0 < fs)
    (hle : last ≤ (fs : ℝ) / 2) :
    ∃ t, warp s lam fs = .ok t ∧ t.data = s.data ∧ warp t (-lam) fs = .ok s := by
  obtain ⟨h1, h2⟩ := C125_spectrum s hv last hlast lam fs hfs
  rw [if_pos ⟨hl, Or.inl hle⟩] at h1
  refine ⟨_, h1, rfl, ?_⟩
  have hl' : |(-lam)| < 1 := by rwa [abs_neg]
  have hlast' : (s.freqs.map (warpOne fs lam)).getLast? = some (warpOne fs lam last) := by
    rw [List.getLast?_map, hlast]
    rfl
  obtain ⟨h3, -⟩ := C125_spectrum
    ⟨s.freqs.map (warpOne fs lam), s.data, s.isMagnitude, s.domain, s.scheme, s.edges⟩
    (h2 hl) _ hlast' (-lam) fs hfs
  have hle' : warpOne fs lam last ≤ (fs : ℝ) / 2 := by
    rw [← (C125_ends fs hfs lam 0).2.1, le_iff fs hfs lam hl]
    exact hle
  rw [if_pos ⟨hl', Or.inl hle'⟩] at h3
  rw [h3]
  have e : (s.freqs.map (warpOne fs lam)).map (warpOne fs (-lam)) = s.freqs := by
    rw [List.map_map]
    conv_rhs => rw [← List.map_id s.freqs]
    refine List.map_congr_left fun f _ => ?_
    exact C125_inverse fs hfs lam hl f
  dsimp only
  rw [e]

/-- The function alone raises exactly for factors of one or more. -/
theorem C125_vector (freqs : List ℝ) (fs : ℕ) (lam : ℝ) :
    (|lam| < 1 → warpFrequencies freqs fs lam = .ok (freqs.map (warpOne fs lam))) ∧
    (1 ≤ |lam| → warpFrequencies freqs fs lam = .error .assertionError) := by
  unfold warpFrequencies
  exact ⟨fun h => if_neg (not_not.2 h), fun h => if_pos (not_lt.2 h)⟩

/-- The hypotheses are met. -/
example : Valid [0, 10, 20] ∧ ([0, 10, 20] : List ℝ).getLast? = some 20 ∧ |(-1 / 2 : ℝ)| < 1 ∧
    (20 : ℝ) ≤ ((48000 : ℕ) : ℝ) / 2 := by
  refine ⟨⟨by simp, by simp; norm_num⟩, rfl, by rw [abs_lt]; norm_num, by norm_num⟩

/-- A quarter of the sampling rate moves down by `fs/π · arctan λ`. -/
example (fs : ℕ) (hfs : 0 < fs) (lam : ℝ) :
    warpOne fs lam ((fs : ℝ) / 4) = fs / 4 - fs / π * arctan lam := by
  have h1 : (fs : ℝ) ≠ 0 := by positivity
  have e : 2 * π * ((fs : ℝ) / 4) / fs = π / 2 := by field_simp; norm_num
  simp only [warpOne, e, sin_pi_div_two, cos_pi_div_two, mul_one, mul_zero, add_zero, div_one,
    arctan_neg]
  ring

end Verif.Props.C125
