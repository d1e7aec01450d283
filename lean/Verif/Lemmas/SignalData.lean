import Verif.Model.PadTrim
import Verif.Spec.SignalChannels
import Verif.Props.C14
import Verif.Lemmas.LFilter
import Mathlib.Tactic.IntervalCases

/-! Lemmas about building signals from arrays. -/

set_option linter.unusedSectionVars false

namespace Verif.SignalData

section list
variable {α : Type} [Zero α]

theorem padTrim_length (xs : List α) (n : ℕ) (e : Bool) : (padTrim xs n e).length = n := by
  unfold padTrim
  cases e <;> simp only [Bool.false_eq_true, if_true, if_false] <;> split_ifs <;>
    (try simp only [List.length_append, List.length_reverse, List.length_replicate,
      List.length_take]) <;> omega

theorem getD_reverse' (xs : List α) (i : ℕ) (h : i < xs.length) :
    xs.reverse.getD i 0 = xs.getD (xs.length - 1 - i) 0 := by
  rw [List.getD_eq_getElem _ _ (by simpa using h), List.getElem_reverse,
    List.getD_eq_getElem _ _ (by omega)]

theorem padTrim_end (xs : List α) (n i : ℕ) (h : i < n) :
    (padTrim xs n true).getD i 0 = xs.getD i 0 := by
  unfold padTrim
  simp only [if_true]
  split_ifs with h1 h2
  · rfl
  · by_cases hi : i < xs.length
    · rw [List.getD_append _ _ _ _ hi]
    · rw [List.getD_append_right _ _ _ _ (by omega), List.getD_eq_default xs _ (by omega)]
      rw [List.getD_eq_getElem _ _ (by rw [List.length_replicate]; omega)]; simp
  · rw [List.getD_eq_getElem _ _ (by simp; omega), List.getElem_take,
      List.getD_eq_getElem _ _ (by omega)]

theorem padTrim_start (xs : List α) (n i : ℕ) (h : i < n) :
    (padTrim xs n false).getD i 0 =
      if n ≤ i + xs.length then xs.getD (i + xs.length - n) 0 else 0 := by
  have hrev : padTrim xs n false = (padTrim xs.reverse n true).reverse := by
    unfold padTrim
    simp only [List.length_reverse, Bool.false_eq_true, if_false, if_true]
    split_ifs <;> simp
  rw [hrev, getD_reverse' _ _ (by rw [padTrim_length]; exact h), padTrim_length,
    padTrim_end _ _ _ (by omega)]
  split_ifs with h1
  · rw [getD_reverse' _ _ (by omega)]
    congr 1
    omega
  · rw [List.getD_eq_default _ _ (by simp; omega)]

end list

variable {K : Type} [Field K] [LinearOrder K]

theorem colOf_getD (A : Mat K) (c r : ℕ) :
    (colOf A c).getD r 0 = if r < A.rows then A.val r c else 0 := by
  unfold colOf
  split_ifs with h
  · rw [List.getD_eq_getElem _ _ (by simpa using h)]; simp
  · rw [List.getD_eq_default _ _ (by simpa using h)]

theorem colOf_length (A : Mat K) (c : ℕ) : (colOf A c).length = A.rows := by simp [colOf]

theorem standardForm_ok (x : Input K) (h : x.cols ≤ x.rows) (h1 : ¬ (x.rows = 1 ∧ x.cols = 1)) :
    standardForm x = .ok x := by
  unfold standardForm
  rw [if_neg h1]
  simp only
  by_cases hr : x.rows = 1
  · have hc : x.cols = 0 := by omega
    have hTT : x.T.T = x := by cases x with | mk r c f g => cases g <;> rfl
    have hgt : x.T.cols > x.T.rows := by
      show x.rows > x.cols
      omega
    rw [if_pos hr, if_pos hgt, hTT]
  · rw [if_neg hr, if_neg (by omega)]

theorem standardForm_T (x : Input K) (h : x.rows < x.cols) : standardForm x = .ok x.T := by
  unfold standardForm
  rw [if_neg (by omega)]
  simp only
  by_cases hr : x.rows = 1
  · have hgt : ¬ x.T.cols > x.T.rows := by
      show ¬ x.rows > x.cols
      omega
    rw [if_pos hr, if_neg hgt]
  · rw [if_neg hr, if_pos (by omega)]

theorem peak_le_one [IsStrictOrderedRing K] (x : Input K)
    (hre : ∀ r < x.rows, ∀ c < x.cols, |x.re r c| ≤ 1)
    (him : ∀ f, x.im = some f → ∀ r < x.rows, ∀ c < x.cols, |f r c| ≤ 1) : peak x ≤ 1 := by
  rcases (C14_peak_is_largest x).2.2 with h | ⟨r, hr, c, hc, h | ⟨f, hf, h⟩⟩
  · rw [h]; exact zero_le_one
  · rw [h]; exact hre r hr c hc
  · rw [h]; exact him f hf r hr c hc

/-- Data of a proper shape and amplitude is stored as it is. -/
theorem setData_ok [IsStrictOrderedRing K] (s : State K) (x : Input K) (h : x.cols ≤ x.rows)
    (h1 : ¬ (x.rows = 1 ∧ x.cols = 1))
    (hb : s.constrain = true → 1 ≤ x.cols ∧ (∀ r < x.rows, ∀ c < x.cols, |x.re r c| ≤ 1) ∧
      ∀ f, x.im = some f → ∀ r < x.rows, ∀ c < x.cols, |f r c| ≤ 1) :
    setData s x = .ok ⟨x.reMat, x.imMat, s.constrain, 1⟩ := by
  unfold setData
  rw [standardForm_ok x h h1]
  cases hc : s.constrain with
  | false => simp
  | true =>
    obtain ⟨h2, h3, h4⟩ := hb hc
    have hne : ¬ (x.rows = 0 ∨ x.cols = 0) := by omega
    have hp : ¬ peak x > 1 := not_lt.mpr (peak_le_one x h3 h4)
    simp only [if_true, hne, hp, if_false]

theorem copyWith_ok [IsStrictOrderedRing K] (s : State K) (x : Input K) (h : x.cols ≤ x.rows)
    (h1 : ¬ (x.rows = 1 ∧ x.cols = 1))
    (hb : s.constrain = true → 1 ≤ x.cols ∧ (∀ r < x.rows, ∀ c < x.cols, |x.re r c| ≤ 1) ∧
      ∀ f, x.im = some f → ∀ r < x.rows, ∀ c < x.cols, |f r c| ≤ 1) :
    copyWith s x = .ok ⟨x.reMat, x.imMat, s.constrain, 1⟩ :=
  setData_ok _ x h h1 hb

/-- Data of a proper shape is stored up to the scale factor. -/
theorem setData_scaled [IsStrictOrderedRing K] (s : State K) (x : Input K)
    (h : x.cols ≤ x.rows) (h1 : ¬ (x.rows = 1 ∧ x.cols = 1)) (h2 : 1 ≤ x.cols) :
    ∃ s', setData s x = .ok s' ∧ s'.constrain = s.constrain ∧ s'.HasShape x.rows x.cols ∧
      s'.scale = (if s.constrain = true ∧ 1 < peak x then 1 / peak x else 1) ∧
      (∀ r < x.rows, ∀ c < x.cols, s'.sample r c = s'.scale * x.re r c) ∧
      (∀ r < x.rows, ∀ c < x.cols, s'.sampleIm r c = s'.scale * x.im.elim 0 fun f => f r c) ∧
      s'.im.isSome = x.im.isSome := by
  unfold setData
  rw [standardForm_ok x h h1]
  have hne : ¬ (x.rows = 0 ∨ x.cols = 0) := by omega
  cases hc : s.constrain with
  | false =>
    refine ⟨_, rfl, rfl, ⟨rfl, rfl⟩, by simp, fun r hr c hc => ?_, fun r hr c hc => ?_, ?_⟩
    · simp [State.sample, Input.reMat, hr, hc]
    · cases hi : x.im <;> simp [State.sampleIm, Input.imMat, hi, hr, hc]
    · simp [Input.imMat]
  | true =>
    simp only [if_true, hne, if_false]
    by_cases hp : peak x > 1
    · simp only [hp, if_true]
      refine ⟨_, rfl, rfl, ⟨rfl, rfl⟩, by simp, fun r hr c hc => ?_,
        fun r hr c hc => ?_, ?_⟩
      · simp [State.sample, Input.reMat, Mat.map, hr, hc, div_eq_inv_mul]
      · cases hi : x.im <;>
          simp [State.sampleIm, Input.imMat, hi, hr, hc, Mat.map, div_eq_inv_mul]
      · simp [Input.imMat]
    · simp only [hp, if_false]
      refine ⟨_, rfl, rfl, ⟨rfl, rfl⟩, by simp, fun r hr c hc => ?_,
        fun r hr c hc => ?_, ?_⟩
      · simp [State.sample, Input.reMat, hr, hc]
      · cases hi : x.im <;> simp [State.sampleIm, Input.imMat, hi, hr, hc]
      · simp [Input.imMat]

/-- Entry of a padded or trimmed column. -/
theorem padTrim_col (A : Mat K) (c n r : ℕ) (e : Bool) (hr : r < n) :
    (padTrim (colOf A c) n e).getD r 0 = placed (fun i => A.val i c) A.rows n e r := by
  unfold placed
  cases e with
  | true => rw [padTrim_end _ _ _ hr, colOf_getD]; simp
  | false =>
    rw [padTrim_start _ _ _ hr, colOf_length, colOf_getD]
    simp only [Bool.false_eq_true, if_false]
    split_ifs <;> first | rfl | omega

/-- Real data gives a real signal. -/
theorem copyWith_im_none (s s' : State K) (x : Input K) (hx : x.im = none)
    (h : copyWith s x = .ok s') : s'.im = none := by
  unfold copyWith construct setData at h
  cases hy : standardForm x with
  | error e => rw [hy] at h; exact absurd h (by simp)
  | ok y =>
    have hyi : y.imMat = none := by
      unfold standardForm at hy
      split at hy
      · exact absurd hy (by simp)
      · simp only at hy
        have hy' := (Except.ok.inj hy).symm
        subst hy'
        split_ifs <;> simp [Input.imMat, Input.T, hx]
    rw [hy] at h
    simp only [hyi] at h
    split_ifs at h <;> (have h' := (Except.ok.inj h).symm; subst h'; rfl)

/-- Stored samples of a valid signal are bounded, zero outside the shape. -/
theorem sample_bounded [IsStrictOrderedRing K] {s : State K} (hs : Valid s)
    (hc : s.constrain = true) (r c : ℕ) : |s.sample r c| ≤ 1 := by
  unfold State.sample
  split_ifs with h
  · exact hs.bounded hc r h.1 c h.2
  · simp

/-- A constrained signal with two channels and three samples, used to show that hypotheses
can be met. -/
def demo : State ℚ := ⟨⟨3, 2, fun r c => (r + 3 * c) / 6⟩, none, true, 1⟩

theorem demo_valid : Valid demo := by
  refine ⟨by simp [demo], by simp [demo], fun _ r hr c hc => ?_⟩
  have hr' : r < 3 := hr
  have hc' : c < 2 := hc
  show |((r : ℚ) + 3 * c) / 6| ≤ 1
  interval_cases r <;> interval_cases c <;> norm_num [abs_le]

end Verif.SignalData
