import Verif.Props.C146
import Verif.Props.C40
import Verif.Props.C126

/-!
# C146 (continued): values after trimming, removing channels, resampling and smoothing; refusals
-/

namespace Verif.SpecObj

open Spectrum SpecConv Verif.Append Complex
open Verif.Props.C126 (Proper Interpolates Usable own_all)

theorem ascending_of_steps (f : List ℝ) (h : ∀ i < f.length - 1, f.getD i 0 < f.getD (i + 1) 0) :
    Ascending f := by
  intro i j hij hj
  induction j with
  | zero => omega
  | succ j ih =>
    have h1 := h j (by omega)
    rcases Nat.lt_or_ge i j with h2 | h2
    · exact (ih h2 (by omega)).trans h1
    · rw [show i = j by omega]
      exact h1

/-- No channel at all, or one that does not exist, raises IndexError. -/
theorem C146_get_channels_refused (o : Obj) (idx : List ℤ)
    (h : idx = [] ∨ ∃ j ∈ idx, j < -(o.spec.data.cols : ℤ) ∨ (o.spec.data.cols : ℤ) ≤ j) :
    getChannels o idx = .error .indexError := by
  unfold getChannels
  dsimp only
  by_cases h0 : idx = []
  · rw [if_pos h0]
  rw [if_neg h0, if_pos]
  intro hall
  rcases h with h | ⟨j, hj, h⟩
  · exact h0 h
  · have := hall j hj
    omega

/-- An order that is not a permutation of the channels raises AssertionError and changes nothing. -/
theorem C146_swap_refused (o : Obj) (order : List ℤ)
    (h : ¬ (order.length = o.spec.data.cols ∧ (∀ j ∈ order, 0 ≤ j ∧ j < (o.spec.data.cols : ℤ)) ∧
      order.Nodup)) : swapChannels o order = (o, some .assertionError) := by
  unfold swapChannels
  dsimp only
  by_cases h1 : order.length ≠ o.spec.data.cols
  · rw [if_pos h1]
  rw [if_neg h1]
  by_cases h2 : ¬ ∀ j ∈ order, 0 ≤ j ∧ j < (o.spec.data.cols : ℤ)
  · rw [if_pos h2]
  rw [if_neg h2]
  by_cases h3 : ¬ order.Nodup
  · rw [if_pos h3]
  · exact absurd ⟨not_not.mp h1, not_not.mp h2, not_not.mp h3⟩ h

/-- `remove_channel` removes the channel with the given number (-1 and other negative numbers count from
the last one) and keeps the others in order. -/
theorem C146_remove (o : Obj) (ho : Aligned o) (hC : 2 ≤ o.spec.data.cols) (ch : ℤ) (k : ℕ)
    (hk : k < o.spec.data.cols) (hck : ch = k ∨ ch = (k : ℤ) - o.spec.data.cols) :
    ∃ o', removeChannel o ch = (o', none) ∧ o'.spec.freqs = o.spec.freqs ∧
      o'.spec.isMagnitude = o.spec.isMagnitude ∧ o'.spec.data.rows = o.spec.data.rows ∧
      o'.spec.data.cols + 1 = o.spec.data.cols ∧
      ∀ r c, (c < k → o'.spec.data.val r c = o.spec.data.val r c) ∧
        (k ≤ c → o'.spec.data.val r c = o.spec.data.val r (c + 1)) := by
  have ht := ho.tall
  have hcol : colIndex o.spec.data.cols (if ch = -1 then (o.spec.data.cols : ℤ) - 1 else ch) = k := by
    unfold colIndex
    split_ifs <;> omega
  have hu : upright (o.spec.data.deleteCol k) = o.spec.data.deleteCol k := by
    apply upright_self
    simp only [Mat.deleteCol]
    omega
  have hrr : (o.spec.data.deleteCol k).rows = o.spec.freqs.length := ho.rows
  have hset : setData o (o.spec.data.deleteCol k) o.spec.isMagnitude =
      (⟨{ o.spec with data := o.spec.data.deleteCol k }, o.coherence⟩, none) := by
    unfold setData
    rw [hu, if_neg (not_not.mpr hrr), if_neg]
    rintro ⟨hm, hneg⟩
    apply hneg
    intro r hr c hc
    simp only [Mat.deleteCol] at hr hc ⊢
    exact ho.mag hm r hr _ (by split_ifs <;> omega)
  refine ⟨⟨{ o.spec with data := o.spec.data.deleteCol k }, o.coherence⟩, ?_, rfl, rfl, rfl, ?_, ?_⟩
  · unfold removeChannel
    dsimp only
    rw [hcol, if_neg (by omega), if_neg (by split_ifs <;> omega), if_neg (by split_ifs <;> omega), hset]
  · simp only [Mat.deleteCol]
    omega
  · intro r c
    simp only [Mat.deleteCol]
    exact ⟨fun h => by rw [if_pos h], fun h => by rw [if_neg (by omega)]⟩

/-- The only channel, and channels that do not exist, are refused without any change. -/
theorem C146_remove_refused (o : Obj) (ch : ℤ)
    (h : o.spec.data.cols ≤ 1 ∨ (o.spec.data.cols : ℤ) ≤ ch ∨ (ch < -(o.spec.data.cols : ℤ))) :
    ∃ e, removeChannel o ch = (o, some e) := by
  unfold removeChannel
  dsimp only
  by_cases h1 : o.spec.data.cols ≤ 1
  · exact ⟨_, by rw [if_pos h1]⟩
  rw [if_neg h1]
  by_cases h2 : (o.spec.data.cols : ℤ) - 1 < if ch = -1 then (o.spec.data.cols : ℤ) - 1 else ch
  · exact ⟨_, by rw [if_pos h2]⟩
  rw [if_neg h2]
  refine ⟨_, if_pos ?_⟩
  split_ifs at h2 ⊢ <;> omega

/-- Trimming the object does to grid and data what C40 says about `trim`, and nothing else. -/
theorem C146_trim (o : Obj) (ho : Aligned o) (lo hi : Option ℝ) (inclusive : Bool) :
    ∃ t e, trim ⟨o.spec.freqs, o.spec.data⟩ lo hi inclusive = (t, e) ∧
      trimTo o lo hi inclusive =
        (⟨{ o.spec with freqs := t.freqs, data := t.data }, o.coherence⟩, e) := by
  have hasc := ascending_of_steps _ ho.asc
  unfold trim trimTo
  dsimp only
  cases hs : toSlice o.spec.freqs lo hi inclusive with
  | error e => exact ⟨_, _, rfl, rfl⟩
  | ok p =>
    obtain ⟨i, j⟩ := p
    dsimp only
    obtain ⟨hij, hjl, -, -⟩ := toSlice_le _ hasc _ _ _ _ _ hs
    have hlen : ((o.spec.freqs.drop i).take (j - i)).length = j - i := by
      rw [List.length_take, List.length_drop]
      omega
    rw [setFreqs_of o _ (fun x hx => ho.nonneg x (List.mem_of_mem_drop (List.mem_of_mem_take hx)))
      (by
        intro k hk
        rw [hlen] at hk
        rw [getD_slice _ _ _ _ (by omega), getD_slice _ _ _ _ (by omega)]
        exact hasc _ _ (by omega) (by omega))]
    dsimp only
    unfold setSpectral setData
    dsimp only
    by_cases hr : (upright (sliceRows o.spec.data i j)).rows = ((o.spec.freqs.drop i).take (j - i)).length
    · rw [if_pos hr, if_neg (not_not.mpr hr), if_neg]
      · exact ⟨_, _, rfl, rfl⟩
      · rintro ⟨hm, hneg⟩
        apply hneg
        intro r hr' c hc
        have hu : upright (sliceRows o.spec.data i j) = sliceRows o.spec.data i j :=
          Verif.Props.C126.upright_rows _ (j - i) rfl (hr.trans hlen)
        rw [hu] at hr' hc ⊢
        simp only [sliceRows] at hr' hc ⊢
        exact ho.mag hm _ (by rw [ho.rows]; omega) c hc
    · rw [if_neg hr, if_pos hr]
      exact ⟨_, _, rfl, rfl⟩

/-- Resampling a spectrum to its own frequencies returns its data, for magnitudes and for complex
values, with every scheme and edge handling that can be used. -/
theorem C146_resample_own (sp : Spline) (hsp : Interpolates sp) (o : Obj) (ho : Aligned o)
    (him : o.spec.isMagnitude = true → ∀ r c, 0 ≤ (o.spec.data.val r c).re ∧
      (o.spec.data.val r c).im = 0)
    (hu : Usable o.spec) :
    ∃ o', resample sp o o.spec.freqs = (o', none) ∧ o'.spec.freqs = o.spec.freqs ∧
      o'.spec.data.rows = o.spec.data.rows ∧ o'.spec.data.cols = o.spec.data.cols ∧
      ∀ r < o.spec.data.rows, ∀ c, o'.spec.data.val r c = o.spec.data.val r c := by
  have hasc := ascending_of_steps _ ho.asc
  have hP : Proper { o.spec with
      domain := if o.spec.isMagnitude then .power else .magnitudePhase } :=
    ⟨ho.nonneg, hasc, ho.rows, him⟩
  have hs : setInterpolator o (if o.spec.isMagnitude then .power else .magnitudePhase)
      o.spec.scheme o.spec.edges = (⟨{ o.spec with
        domain := if o.spec.isMagnitude then .power else .magnitudePhase }, o.coherence⟩, none) := by
    unfold setInterpolator
    cases hm : o.spec.isMagnitude <;> simp
  obtain ⟨A, hA, hAr, hAc, hAv⟩ := own_all sp hsp { o.spec with
      domain := if o.spec.isMagnitude then .power else .magnitudePhase } hP hu
    (if o.spec.isMagnitude then .magnitude else .complex) (by
      intro h
      cases hm : o.spec.isMagnitude with
      | false => rfl
      | true =>
        rw [hm] at h
        simp at h)
  dsimp only at hA hAr hAc hAv
  have hval : ∀ r < o.spec.freqs.length, ∀ c, A.val r c = o.spec.data.val r c := by
    intro r hr c
    rw [hAv r hr c]
    cases hm : o.spec.isMagnitude with
    | false =>
      simp only [Bool.false_eq_true, if_false]
      rw [C42_own_bins_partial _ _ _ _ hasc _ r hr (fun _ => Or.inr rfl)]
      simp [stored]
    | true =>
      simp only [if_true]
      rw [C42_own_bins_partial _ _ _ _ hasc _ r hr (by simp)]
      obtain ⟨q1, q2⟩ := him hm r c
      simp only [stored]
      refine Complex.ext ?_ ?_
      · rw [Complex.ofReal_re]
        have : o.spec.data.val r c = (((o.spec.data.val r c).re : ℝ) : ℂ) :=
          Complex.ext (by simp) (by simp [q2])
        rw [this, Complex.norm_real, Real.norm_eq_abs, Complex.ofReal_re, abs_of_nonneg q1]
      · rw [Complex.ofReal_im, q2]
  have htall := ho.tall
  have hrows := ho.rows
  have hup : upright A = A := upright_self A (by omega)
  have hset : setData ⟨{ o.spec with
        domain := if o.spec.isMagnitude then .power else .magnitudePhase }, o.coherence⟩ A
      o.spec.isMagnitude = (⟨{ o.spec with
        data := A
        domain := if o.spec.isMagnitude then .power else .magnitudePhase }, o.coherence⟩, none) := by
    unfold setData
    rw [hup, if_neg (not_not.mpr hAr), if_neg]
    rintro ⟨hm, hneg⟩
    apply hneg
    intro r hr c hc
    rw [hval r (by omega) c]
    exact (him hm r c).1
  refine ⟨⟨{ o.spec with
        data := A
        domain := if o.spec.isMagnitude then .power else .magnitudePhase }, o.coherence⟩, ?_, rfl,
    hAr.trans hrows.symm, hAc, fun r hr c => hval r (by omega) c⟩
  unfold resample
  dsimp only
  rw [hs]
  dsimp only
  rw [hA]
  dsimp only
  rw [setFreqs_of _ _ ho.nonneg ho.asc]
  dsimp only
  exact hset

/-- Where smoothing returns, the new data are the smoothed magnitudes, for complex data with the
smoothed unwrapped phases; the spacing in octaves is handed over exactly for logarithmic frequencies. -/
theorem C146_smoothing_partial (w : Option ℝ → Mat ℝ → Mat ℝ) (o o' : Obj)
    (hw : ∀ b A, (w b A).rows = A.rows ∧ (w b A).cols = A.cols) (ho : Aligned o)
    (h : octaveSmoothing w o = (o', none)) :
    ∃ beta : Option ℝ,
      (spacing o.spec.freqs = .linear → beta = none) ∧
      (spacing o.spec.freqs = .logarithmic → ∃ b, beta = some b ∧
        (0 < o.spec.freqs.getD (o.spec.freqs.length - 2) 0 →
          0 < o.spec.freqs.getD (o.spec.freqs.length - 1) 0 →
          (2 : ℝ) ^ b * o.spec.freqs.getD (o.spec.freqs.length - 2) 0 =
          o.spec.freqs.getD (o.spec.freqs.length - 1) 0)) ∧
      o'.spec.freqs = o.spec.freqs ∧ o'.spec.isMagnitude = o.spec.isMagnitude ∧
      o'.coherence = o.coherence ∧
      ∀ r c, o'.spec.data.val r c =
        if o.spec.isMagnitude = true then
          (((w beta ⟨o.spec.data.rows, o.spec.data.cols, fun r c => (o.spec.data.val r c).re⟩).val r c
            : ℝ) : ℂ)
        else
          (((w beta ⟨o.spec.data.rows, o.spec.data.cols, fun r c => ‖o.spec.data.val r c‖⟩).val r c
            : ℝ) : ℂ) * exp (I * (((w beta ⟨o.spec.data.rows, o.spec.data.cols, fun r c =>
              unwrap (fun i => (o.spec.data.val i c).arg) r⟩).val r c : ℝ) : ℂ)) := by
  have ht := ho.tall
  have key : ∀ beta : Option ℝ,
      (if o.spec.isMagnitude = true then
        setData o ⟨(w beta ⟨o.spec.data.rows, o.spec.data.cols, fun r c =>
            (o.spec.data.val r c).re⟩).rows, (w beta ⟨o.spec.data.rows, o.spec.data.cols, fun r c =>
            (o.spec.data.val r c).re⟩).cols, fun r c => (((w beta ⟨o.spec.data.rows,
            o.spec.data.cols, fun r c => (o.spec.data.val r c).re⟩).val r c : ℝ) : ℂ)⟩ true
      else
        setData o ⟨(w beta ⟨o.spec.data.rows, o.spec.data.cols, fun r c =>
            ‖o.spec.data.val r c‖⟩).rows, (w beta ⟨o.spec.data.rows, o.spec.data.cols, fun r c =>
            ‖o.spec.data.val r c‖⟩).cols, fun r c => (((w beta ⟨o.spec.data.rows,
            o.spec.data.cols, fun r c => ‖o.spec.data.val r c‖⟩).val r c : ℝ) : ℂ) *
            exp (I * (((w beta ⟨o.spec.data.rows, o.spec.data.cols, fun r c =>
              unwrap (fun i => (o.spec.data.val i c).arg) r⟩).val r c : ℝ) : ℂ))⟩ false) =
        (o', none) →
      o'.spec.freqs = o.spec.freqs ∧ o'.spec.isMagnitude = o.spec.isMagnitude ∧
      o'.coherence = o.coherence ∧
      ∀ r c, o'.spec.data.val r c =
        if o.spec.isMagnitude = true then
          (((w beta ⟨o.spec.data.rows, o.spec.data.cols, fun r c => (o.spec.data.val r c).re⟩).val r c
            : ℝ) : ℂ)
        else
          (((w beta ⟨o.spec.data.rows, o.spec.data.cols, fun r c => ‖o.spec.data.val r c‖⟩).val r c
            : ℝ) : ℂ) * exp (I * (((w beta ⟨o.spec.data.rows, o.spec.data.cols, fun r c =>
              unwrap (fun i => (o.spec.data.val i c).arg) r⟩).val r c : ℝ) : ℂ)) := by
    intro beta hb
    by_cases hm : o.spec.isMagnitude = true
    · rw [if_pos hm] at hb
      obtain ⟨-, -, g⟩ := setData_ok _ _ _ _ hb
      rw [upright_self _ (by dsimp only; rw [(hw _ _).1, (hw _ _).2]; exact ht)] at g
      subst g
      exact ⟨rfl, hm.symm, rfl, fun r c => by rw [if_pos hm]⟩
    · rw [if_neg hm] at hb
      obtain ⟨-, -, g⟩ := setData_ok _ _ _ _ hb
      rw [upright_self _ (by dsimp only; rw [(hw _ _).1, (hw _ _).2]; exact ht)] at g
      subst g
      exact ⟨rfl, (Bool.eq_false_iff.mpr hm).symm, rfl, fun r c => by rw [if_neg hm]⟩
  unfold octaveSmoothing at h
  dsimp only at h
  cases hs : spacing o.spec.freqs with
  | other =>
    rw [hs] at h
    cases (Prod.ext_iff.mp h).2
  | linear =>
    rw [hs] at h
    exact ⟨none, fun _ => rfl, (fun hh => by cases hh), key none h⟩
  | logarithmic =>
    rw [hs] at h
    refine ⟨some (Real.logb 2 (o.spec.freqs.getD (o.spec.freqs.length - 1) 0 /
      o.spec.freqs.getD (o.spec.freqs.length - 2) 0)), (fun hh => by cases hh),
      (fun _ => ⟨_, rfl, fun p1 p2 => ?_⟩), key _ h⟩
    rw [Real.rpow_logb (by norm_num) (by norm_num) (div_pos p2 p1), div_mul_cancel₀ _ p1.ne']

/-- Linear interpolation as a spline. -/
noncomputable def linearSpline : Spline := fun _ f d x => interp f (column f.length d) 0 0 x

theorem linearSpline_interpolates : Interpolates linearSpline := by
  intro _ f d hf k hk
  unfold linearSpline
  rw [C42_interp_at_bin f _ hf 0 0 k hk]
  unfold column
  rw [LFilter.getD_map_range, if_pos hk]

/-- The sample meets the hypotheses above. -/
example : (∃ o', removeChannel sample (-1) = (o', none) ∧ o'.spec.data.cols + 1 = 2) ∧
    ∃ o', resample linearSpline sample [1, 2, 3] = (o', none) := by
  constructor
  · obtain ⟨o', h1, -, -, -, h5, -⟩ := C146_remove sample sample_aligned (by show 2 ≤ 2; norm_num)
      (-1) 1 (by show 1 < 2; norm_num) (Or.inr (by simp [sample]))
    exact ⟨o', h1, h5⟩
  · have hu : Usable sample.spec := by
      simp [Usable, sample]
    obtain ⟨o', h, -⟩ := C146_resample_own _ linearSpline_interpolates sample sample_aligned (by
        intro _ r c
        simp only [sample]
        rw [Complex.natCast_re, Complex.natCast_im]
        exact ⟨by positivity, rfl⟩) hu
    exact ⟨o', h⟩

end Verif.SpecObj
