import Verif.Model.WarpSignal
import Verif.Props.C71
import Verif.Props.C61

/-!
# C71: warping of signals with several channels, and the shift to the start

"Every channel is warped on its own; with `shift_ir` after it has been rotated so that its start comes first.  The
factor is returned with the signal if it was given as a text."
-/

namespace Verif.Props.C71

open Warp Room Level

/-- Rotation by `s` samples: the sample `s` comes first and the ones before it go to the end. -/
theorem rotation (x : List ℝ) (s : ℕ) (hs : s ≤ x.length) :
    Harmonics.roll x (-(s : ℤ)) = x.drop s ++ x.take s := by
  unfold Harmonics.roll
  apply List.ext_getElem
  · simp; omega
  · intro i h1 h2
    simp only [List.length_map, List.length_range] at h1
    simp only [List.getElem_map, List.getElem_range]
    rw [show ((i : ℤ) - -(s : ℤ)) = ((i + s : ℕ) : ℤ) by push_cast; ring, ← Int.natCast_mod, Int.toNat_natCast]
    by_cases h : i + s < x.length
    · rw [Nat.mod_eq_of_lt h, List.getD_eq_getElem _ _ h, List.getElem_append_left (by simp; omega),
        List.getElem_drop]
      simp only [Nat.add_comm]
    · have hm : (i + s) % x.length = i + s - x.length := by
        rw [Nat.mod_eq_sub_mod (by omega), Nat.mod_eq_of_lt (by omega)]
      rw [hm, List.getD_eq_getElem _ _ (by omega), List.getElem_append_right (by simp; omega), List.getElem_take]
      congr 1
      simp
      omega

/-- The channels are warped one by one: channel `c` holds the first samples of the response in which the allpass
replaces the delays of the channel, rotated to its start (`IsStart`: the last sample more than 20 dB below the
peak before it, or the first sample) if asked for, and cut to the total length. -/
theorem C71_signal (w : Factor) (fs lam : ℝ) (hw : warpingFactor w fs = .ok lam) (shift : Bool) (total : Option ℕ)
    (ht : total ≠ some 0) (td : List (List ℝ)) (hne : ∀ x ∈ td, x ≠ []) :
    ∃ ys r, warpSignal w fs shift total td = .ok (ys, r) ∧
      ((∃ s, w = .text s) → r = some lam) ∧ ((∀ s, w ≠ .text s) → r = none) ∧
      ys.length = td.length ∧ ∀ c (hc : c < td.length), ∃ s, (if shift then IsStart (-20) td[c] s else s = 0) ∧
        (ys.getD c []).length = min (total.getD td[c].length) td[c].length ∧
        ∀ k < (ys.getD c []).length, (ys.getD c []).getD k 0 = PowerSeries.coeff k
          (warped lam ((td[c].drop s ++ td[c].take s).take (total.getD td[c].length))) := by
  have hr : ∃ r, warpSignal w fs shift total td =
      .ok ((if shift then td.map shiftStart else td).map (warp lam total), r) ∧
      ((∃ s, w = .text s) → r = some lam) ∧ ((∀ s, w ≠ .text s) → r = none) := by
    unfold warpSignal
    rw [hw]
    simp only [if_neg ht]
    refine ⟨_, rfl, ?_, fun h => ?_⟩
    · rintro ⟨s, rfl⟩
      rfl
    · cases w with
      | text s => exact absurd rfl (h s)
      | float v => rfl
      | other => rfl
  obtain ⟨r, hr1, hr2, hr3⟩ := hr
  refine ⟨(if shift then td.map shiftStart else td).map (warp lam total), r, hr1, hr2, hr3, ?_, fun c hc => ?_⟩
  · cases shift <;> simp
  · have hx : td[c] ≠ [] := hne _ (List.getElem_mem hc)
    have key : ∀ x : List ℝ, x.length = td[c].length → (warp lam total x).length =
        min (total.getD td[c].length) td[c].length ∧ ∀ k < (warp lam total x).length,
        (warp lam total x).getD k 0 = PowerSeries.coeff k (warped lam (x.take (total.getD td[c].length))) := by
      intro x hl
      cases total with
      | none =>
        have h := C71_warped lam x
        simp only [warp, Option.getD_none, min_self]
        rw [← hl, List.take_length]
        refine ⟨h.1, fun k hk => h.2 k (by rwa [h.1] at hk)⟩
      | some n =>
        have h := C71_warped lam (x.take n)
        simp only [warp, Option.getD_some]
        refine ⟨by rw [h.1, List.length_take, hl], fun k hk => h.2 k (by rwa [h.1] at hk)⟩
    cases shift with
    | false =>
      refine ⟨0, rfl, ?_⟩
      have hg : ((if false = true then td.map shiftStart else td).map (warp lam total)).getD c [] =
          warp lam total td[c] := by
        rw [List.getD_eq_getElem _ _ (by simpa using hc)]
        simp
      rw [hg, List.drop_zero, List.take_zero, List.append_nil]
      exact key _ rfl
    | true =>
      have hst := (C61_start (-20) td[c] hx _).1 rfl
      have hle : irStart (-20) td[c] ≤ td[c].length := by
        obtain ⟨p, P, -, h1, -, -, h2, -⟩ := hst
        omega
      refine ⟨irStart (-20) td[c], hst, ?_⟩
      have hg : ((if true = true then td.map shiftStart else td).map (warp lam total)).getD c [] =
          warp lam total (td[c].drop (irStart (-20) td[c]) ++ td[c].take (irStart (-20) td[c])) := by
        rw [List.getD_eq_getElem _ _ (by simpa using hc)]
        simp only [if_true, List.getElem_map, shiftStart]
        rw [rotation _ _ hle]
      rw [hg]
      exact key _ (by simp; omega)

/-- Factors that are refused, and a total length of zero. -/
theorem C71_signal_refused (w : Factor) (fs : ℝ) (shift : Bool) (total : Option ℕ) (td : List (List ℝ)) :
    (∀ e, warpingFactor w fs = .error e → warpSignal w fs shift total td = .error e) ∧
    ∀ lam, warpingFactor w fs = .ok lam → warpSignal w fs shift (some 0) td = .error .indexError := by
  constructor
  · intro e h
    unfold warpSignal
    rw [h]
  · intro lam h
    unfold warpSignal
    rw [h]
    simp

/-- **Disagreement.** The documentation says that the first sample to surpass the threshold is shifted to the
beginning.  What comes first is the sample before it: whenever a sample before the peak lies more than 20 dB below
the peak, the first sample of the shifted response does, too. -/
theorem C71_shift_one_early (x : List ℝ) (P : ℝ) (hP : IsPeak x P) (j p : ℕ) (hjp : j < p) (hp : p < x.length)
    (hpk : |x.getD p 0| = P) (hfirst : ∀ i < p, |x.getD i 0| < P) (hj : |x.getD j 0| < P / 10) :
    |(shiftStart x).getD 0 0| < P / 10 := by
  have hx : x ≠ [] := by
    rintro rfl
    simp at hp
  obtain ⟨p', P', hP', hp', hpv, hpf, hsp, hab, hbe⟩ := (C61_start (-20) x hx _).1 rfl
  have hPP : P' = P := by rw [isPeak_iff x P hP, isPeak_iff x P' hP']
  subst hPP
  have hpp : p' = p := by
    rcases lt_trichotomy p p' with h | h | h
    · exact absurd hpk (hpf p h).ne
    · exact h.symm
    · exact absurd hpv (hfirst p' h).ne
  subst hpp
  have h10 : (10 : ℝ) ^ (-|(-20 : ℝ)| / 20) = 1 / 10 := by
    rw [abs_neg, abs_of_pos (by norm_num), show (-20 / 20 : ℝ) = -1 by norm_num, Real.rpow_neg_one]
    norm_num
  rw [h10] at hab hbe
  have hs : |x.getD (irStart (-20) x) 0| < P' / 10 := by
    rcases hbe with h | h
    · rcases Nat.eq_zero_or_pos j with h0 | h0
      · rw [h, ← h0]
        exact hj
      · have := hab j (by omega) (by omega)
        unfold at_ at this
        linarith
    · unfold at_ at h
      linarith
  unfold shiftStart
  rw [rotation _ _ (by omega)]
  have : (x.drop (irStart (-20) x) ++ x.take (irStart (-20) x)).getD 0 0 = x.getD (irStart (-20) x) 0 := by
    rw [List.getD_eq_getElem _ _ (by simp; omega), List.getElem_append_left (by simp; omega), List.getElem_drop,
      List.getD_eq_getElem _ _ (by omega)]
    simp
  rw [this]
  exact hs

/-- The impulse `0, 1` is left as it is: the sample before the impulse is taken for the start. -/
example : |(shiftStart [0, 1]).getD 0 0| < 1 / 10 :=
  C71_shift_one_early [0, 1] 1 ⟨by simp, 1, by simp, by simp⟩ 0 1 (by norm_num) (by simp) (by simp)
    (fun i hi => by
      have : i = 0 := by omega
      subst this
      simp) (by simp)

example : warpingFactor (.float (1 / 2)) 48000 = .ok (1 / 2) := by
  unfold warpingFactor
  exact if_pos (by rw [abs_of_pos] <;> norm_num)

end Verif.Props.C71
