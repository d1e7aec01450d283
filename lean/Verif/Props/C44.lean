import Verif.Model.Smoothing
import Mathlib.Data.List.GetD
import Mathlib.Tactic.IntervalCases
import Mathlib.Tactic.Linarith
import Mathlib.Tactic.Positivity
import Mathlib.Tactic.FieldSimp
import Mathlib.Tactic.NormNum
import Mathlib.Tactic.LinearCombination

/-!
# C44: exponential smoothing stays within the range of its input
-/

namespace Verif.Smoothing

open Verif.LFilter (lfilterIIR df2tState)

/-- The smoothing factor lies strictly between 0 and 1. -/
theorem C44_factor (time fs acc : ℝ) (ht : 0 < time) (hfs : 0 < fs) (h0 : 0 < acc) (h1 : acc < 1) :
    0 < emaFactor time fs acc ∧ emaFactor time fs acc < 1 := by
  unfold emaFactor
  have hlog : Real.log (1 - acc) < 0 := Real.log_neg (by linarith) (by linarith)
  have hneg : Real.log (1 - acc) / time / fs < 0 :=
    div_neg_of_neg_of_pos (div_neg_of_neg_of_pos hlog ht) hfs
  have := Real.exp_lt_exp.mpr hneg
  rw [Real.exp_zero] at this
  have := Real.exp_pos (Real.log (1 - acc) / time / fs)
  constructor <;> linarith

theorem factorOr_range (time fs : ℝ) (hfs : 0 < fs) :
    0 ≤ factorOr time fs ∧ factorOr time fs ≤ 1 := by
  unfold factorOr
  split_ifs with h
  · obtain ⟨a, b⟩ := C44_factor time fs 0.95 h hfs (by norm_num) (by norm_num)
    exact ⟨a.le, b.le⟩
  · exact ⟨zero_le_one, le_rfl⟩

/-- One step stays between the previous value and the sample. -/
theorem step_between (up down y x : ℝ) (hu : 0 ≤ up ∧ up ≤ 1) (hd : 0 ≤ down ∧ down ≤ 1)
    (lo hi : ℝ) (hy : lo ≤ y ∧ y ≤ hi) (hx : lo ≤ x ∧ x ≤ hi) :
    lo ≤ step up down y x ∧ step up down y x ≤ hi := by
  unfold step
  simp only
  have key : ∀ f : ℝ, 0 ≤ f ∧ f ≤ 1 → lo ≤ f * x + (1 - f) * y ∧ f * x + (1 - f) * y ≤ hi := by
    intro f hf
    have hf' : 0 ≤ 1 - f := by linarith [hf.2]
    have a1 := mul_le_mul_of_nonneg_left hx.1 hf.1
    have a2 := mul_le_mul_of_nonneg_left hx.2 hf.1
    have b1 := mul_le_mul_of_nonneg_left hy.1 hf'
    have b2 := mul_le_mul_of_nonneg_left hy.2 hf'
    constructor <;> linarith
  split_ifs
  · exact key up hu
  · exact key down hd

/-- One step is monotone in the previous value and in the sample. -/
theorem step_mono (up down y y' x x' : ℝ) (hu : 0 ≤ up ∧ up ≤ 1) (hd : 0 ≤ down ∧ down ≤ 1)
    (hy : y ≤ y') (hx : x ≤ x') : step up down y x ≤ step up down y' x' := by
  unfold step
  simp only
  have hu' : 0 ≤ 1 - up := by linarith [hu.2]
  have hd' : 0 ≤ 1 - down := by linarith [hd.2]
  have a1 := mul_le_mul_of_nonneg_left hx hu.1
  have a2 := mul_le_mul_of_nonneg_left hy hu'
  have b1 := mul_le_mul_of_nonneg_left hx hd.1
  have b2 := mul_le_mul_of_nonneg_left hy hd'
  split_ifs with h1 h2 h2
  · linarith
  · -- rising below, falling above: both sides meet at `x'`
    have h3 : x' ≤ y' := not_lt.mp h2
    have c1 := mul_le_mul_of_nonneg_left h1.le hu'
    have c2 := mul_le_mul_of_nonneg_left h3 hd'
    linarith
  · have h3 : x ≤ y := not_lt.mp h1
    have c1 := mul_le_mul_of_nonneg_left h3 hd.1
    have c2 := mul_le_mul_of_nonneg_left (show y' ≤ x' from le_of_lt h2) hu.1
    linarith
  · linarith

theorem smooth_between (up down : ℝ) (hu : 0 ≤ up ∧ up ≤ 1) (hd : 0 ≤ down ∧ down ≤ 1)
    (x : ℕ → ℝ) (lo hi : ℝ) (n : ℕ) (h : ∀ k ≤ n, lo ≤ x k ∧ x k ≤ hi) :
    lo ≤ smooth up down x n ∧ smooth up down x n ≤ hi := by
  induction n with
  | zero => exact h 0 le_rfl
  | succ n ih =>
    exact step_between up down _ _ hu hd lo hi (ih fun k hk => h k (by omega)) (h (n + 1) le_rfl)

theorem smooth_mono (up down : ℝ) (hu : 0 ≤ up ∧ up ≤ 1) (hd : 0 ≤ down ∧ down ≤ 1)
    (x x' : ℕ → ℝ) (n : ℕ) (h : ∀ k ≤ n, x k ≤ x' k) :
    smooth up down x n ≤ smooth up down x' n := by
  induction n with
  | zero => exact h 0 le_rfl
  | succ n ih =>
    exact step_mono up down _ _ _ _ hu hd (ih fun k hk => h k (by omega)) (h (n + 1) le_rfl)

/-- The filter with one factor runs the same recursion. -/
theorem lfilter_recursion (f : ℝ) (xs : List ℝ) (y : ℝ) (k : ℕ) (hk : k < xs.length) :
    (lfilterIIR [f] [1, -(1 - f)] 1 [(1 - f) * y] xs).1.getD k 0 =
      f * xs.getD k 0 + (1 - f) *
        (if k = 0 then y else (lfilterIIR [f] [1, -(1 - f)] 1 [(1 - f) * y] xs).1.getD (k - 1) 0) := by
  induction xs generalizing y k with
  | nil => simp at hk
  | cons x xs ih =>
    have hst : df2tState [f] [1, -(1 - f)] 1 [(1 - f) * y] x (f * x + (1 - f) * y) =
        [(1 - f) * (f * x + (1 - f) * y)] := by
      simp [df2tState]
      ring
    have hl : lfilterIIR [f] [1, -(1 - f)] 1 [(1 - f) * y] (x :: xs) =
        (((f * x + (1 - f) * y) :: (lfilterIIR [f] [1, -(1 - f)] 1
          [(1 - f) * (f * x + (1 - f) * y)] xs).1), (lfilterIIR [f] [1, -(1 - f)] 1
          [(1 - f) * (f * x + (1 - f) * y)] xs).2) := by
      rw [← hst]
      rfl
    rw [hl]
    cases k with
    | zero => simp
    | succ k =>
      have hk' : k < xs.length := by simpa using hk
      simp only [List.getD_cons_succ, Nat.add_sub_cancel, Nat.succ_ne_zero, if_false]
      rw [ih (f * x + (1 - f) * y) k hk']
      cases k with
      | zero => simp
      | succ k => simp

theorem smoothFilter_eq (f : ℝ) (L : ℕ) (x : ℕ → ℝ) (n : ℕ) (hn : n < L) :
    (smoothFilter f L x).getD n 0 = smooth f f x n := by
  have hget : ∀ k < L, ((List.range L).map x).getD k 0 = x k := by
    intro k hk
    rw [List.getD_eq_getElem _ _ (by simpa using hk)]
    simp
  unfold smoothFilter
  induction n with
  | zero =>
    rw [lfilter_recursion _ _ _ 0 (by simpa using hn), hget 0 hn]
    simp only [if_true, smooth]
    ring
  | succ n ih =>
    rw [lfilter_recursion _ _ _ (n + 1) (by simpa using hn), hget _ hn]
    simp only [Nat.succ_ne_zero, if_false, Nat.add_sub_cancel]
    rw [ih (by omega)]
    simp only [smooth, step, ite_self]

/-- All successful calls smooth every line along the longest axis with factors in [0, 1]. -/
theorem timeSmoothing_smooth (x y : Mat ℝ) (fs up : ℝ) (hfs : 0 < fs) (down : Option ℝ)
    (h : timeSmoothing x fs up down = .ok y) :
    ∃ u d : ℝ, (0 ≤ u ∧ u ≤ 1) ∧ (0 ≤ d ∧ d ≤ 1) ∧
      u = factorOr up fs ∧ d = factorOr (down.getD up) fs ∧ y.rows = x.rows ∧ y.cols = x.cols ∧
      ∀ r < x.rows, ∀ c < x.cols, y.val r c =
        if x.rows < x.cols then smooth u d (fun n => x.val r n) c
        else smooth u d (fun n => x.val n c) r := by
  unfold timeSmoothing at h
  simp only at h
  by_cases h1 : up < 0
  · rw [if_pos h1] at h
    cases h
  rw [if_neg h1] at h
  cases down with
  | none =>
    simp only at h
    by_cases h2 : (orient x).rows = 0
    · rw [if_pos h2] at h
      cases h
    rw [if_neg h2] at h
    cases h
    refine ⟨factorOr up fs, factorOr up fs, factorOr_range _ _ hfs, factorOr_range _ _ hfs, rfl, rfl,
      ?_⟩
    unfold back orient
    by_cases hx : x.rows < x.cols
    · simp only [if_pos hx]
      refine ⟨rfl, rfl, fun r hr c hc => ?_⟩
      exact smoothFilter_eq _ _ _ _ hc
    · simp only [if_neg hx]
      refine ⟨trivial, trivial, fun r hr c hc => ?_⟩
      exact smoothFilter_eq _ _ _ _ hr
  | some d =>
    simp only at h
    by_cases h2 : d < 0
    · rw [if_pos h2] at h
      cases h
    rw [if_neg h2] at h
    by_cases h3 : up = 0 ∧ d = up
    · rw [if_pos h3] at h
      cases h
    rw [if_neg h3] at h
    by_cases h4 : (orient x).rows = 0
    · rw [if_pos h4] at h
      cases h
    rw [if_neg h4] at h
    cases h
    refine ⟨factorOr up fs, factorOr d fs, factorOr_range _ _ hfs, factorOr_range _ _ hfs, rfl, rfl,
      ?_⟩
    unfold back orient
    by_cases hx : x.rows < x.cols
    · simp only [if_pos hx]
      exact ⟨rfl, rfl, fun r hr c hc => rfl⟩
    · simp only [if_neg hx]
      exact ⟨trivial, trivial, fun _ _ _ _ => trivial⟩

/-- The values of the line through `(r, c)` along the longest axis up to that entry lie in the
interval. -/
def LineWithin (x : Mat ℝ) (r c : ℕ) (lo hi : ℝ) : Prop :=
  if x.rows < x.cols then ∀ n ≤ c, lo ≤ x.val r n ∧ x.val r n ≤ hi
  else ∀ n ≤ r, lo ≤ x.val n c ∧ x.val n c ≤ hi

/-- The smoothed series never leaves any interval that contains the input so far; in particular
constants are returned unchanged. -/
theorem C44_range (x y : Mat ℝ) (fs up : ℝ) (hfs : 0 < fs) (down : Option ℝ)
    (h : timeSmoothing x fs up down = .ok y) (r c : ℕ) (hr : r < x.rows) (hc : c < x.cols)
    (lo hi : ℝ) (hx : LineWithin x r c lo hi) : lo ≤ y.val r c ∧ y.val r c ≤ hi := by
  obtain ⟨u, d, hu, hd, _, _, _, _, hval⟩ := timeSmoothing_smooth x y fs up hfs down h
  rw [hval r hr c hc]
  unfold LineWithin at hx
  by_cases hs : x.rows < x.cols
  · rw [if_pos hs] at hx ⊢
    exact smooth_between u d hu hd _ lo hi c hx
  · rw [if_neg hs] at hx ⊢
    exact smooth_between u d hu hd _ lo hi r hx

/-- Constants are unchanged. -/
theorem C44_constant (x y : Mat ℝ) (fs up : ℝ) (hfs : 0 < fs) (down : Option ℝ)
    (h : timeSmoothing x fs up down = .ok y) (a : ℝ)
    (hx : ∀ r < x.rows, ∀ c < x.cols, x.val r c = a) : y.Same x := by
  obtain ⟨_, _, _, _, _, _, hr', hc', _⟩ := timeSmoothing_smooth x y fs up hfs down h
  refine ⟨hr', hc', fun r hr c hc => ?_⟩
  rw [hr'] at hr
  rw [hc'] at hc
  have := C44_range x y fs up hfs down h r c hr hc a a (by
    unfold LineWithin
    split_ifs
    · intro n hn
      rw [hx r hr n (by omega)]
      exact ⟨le_rfl, le_rfl⟩
    · intro n hn
      rw [hx n (by omega) c hc]
      exact ⟨le_rfl, le_rfl⟩)
  rw [hx r hr c hc]
  exact le_antisymm this.2 this.1

/-- Raising the input raises the output. -/
theorem C44_monotone (x x' y y' : Mat ℝ) (fs up : ℝ) (hfs : 0 < fs) (down : Option ℝ)
    (h : timeSmoothing x fs up down = .ok y) (h' : timeSmoothing x' fs up down = .ok y')
    (hs : x.SameShape x') (hle : ∀ r < x.rows, ∀ c < x.cols, x.val r c ≤ x'.val r c) :
    ∀ r < x.rows, ∀ c < x.cols, y.val r c ≤ y'.val r c := by
  obtain ⟨u, d, hu, hd, hu', hd', _, _, hval⟩ := timeSmoothing_smooth x y fs up hfs down h
  obtain ⟨u2, d2, _, _, hu2, hd2, _, _, hval'⟩ := timeSmoothing_smooth x' y' fs up hfs down h'
  obtain rfl : u2 = u := hu2.trans hu'.symm
  obtain rfl : d2 = d := hd2.trans hd'.symm
  intro r hr c hc
  rw [hval r hr c hc, hval' r (hs.1 ▸ hr) c (hs.2 ▸ hc), ← hs.1, ← hs.2]
  by_cases hsh : x.rows < x.cols
  · rw [if_pos hsh, if_pos hsh]
    exact smooth_mono _ _ hu hd _ _ c fun k hk => hle r hr k (by omega)
  · rw [if_neg hsh, if_neg hsh]
    exact smooth_mono _ _ hu hd _ _ r fun k hk => hle k (by omega) c hc

/-- The calls succeed for non-negative times, not both zero, and arrays that are not empty. -/
theorem C44_accepts (x : Mat ℝ) (fs up : ℝ) (down : Option ℝ) (hr : 0 < x.rows) (hc : 0 < x.cols)
    (hu : 0 ≤ up) (hd : ∀ d, down = some d → 0 ≤ d ∧ ¬(up = 0 ∧ d = 0)) :
    ∃ y, timeSmoothing x fs up down = .ok y := by
  have hz : (orient x).rows ≠ 0 := by
    unfold orient
    split_ifs
    · exact hc.ne'
    · exact hr.ne'
  unfold timeSmoothing
  simp only
  rw [if_neg (not_lt.mpr hu)]
  cases down with
  | none =>
    simp only
    rw [if_neg hz]
    exact ⟨_, rfl⟩
  | some d =>
    obtain ⟨h1, h2⟩ := hd d rfl
    simp only
    rw [if_neg (not_lt.mpr h1), if_neg (fun h => h2 ⟨h.1, h.2.trans h.1⟩), if_neg hz]
    exact ⟨_, rfl⟩

/-- Meaning of the times: after a jump from 0 to 1 the output reaches the accuracy exactly when
the time has passed (if that is a whole number of samples). -/
theorem C44_step_response (time fs acc down : ℝ) (n : ℕ) (ht : 0 < time) (hfs : 0 < fs)
    (h0 : 0 < acc) (h1 : acc < 1) (hn : (n : ℝ) = time * fs) :
    smooth (emaFactor time fs acc) down (fun k => if k = 0 then 0 else 1) n = acc := by
  obtain ⟨hf0, hf1⟩ := C44_factor time fs acc ht hfs h0 h1
  have hrec : ∀ m : ℕ, smooth (emaFactor time fs acc) down (fun k => if k = 0 then 0 else 1) m =
      1 - (1 - emaFactor time fs acc) ^ m := by
    intro m
    induction m with
    | zero => simp [smooth]
    | succ m ih =>
      simp only [smooth, Nat.succ_ne_zero, if_false]
      rw [ih]
      have hlt : 1 - (1 - emaFactor time fs acc) ^ m < 1 := by
        have : 0 < (1 - emaFactor time fs acc) ^ m := pow_pos (by linarith) m
        linarith
      unfold step
      rw [if_pos hlt]
      ring
  rw [hrec]
  unfold emaFactor
  rw [sub_sub_cancel, ← Real.exp_nat_mul, hn]
  have : time * fs * (Real.log (1 - acc) / time / fs) = Real.log (1 - acc) := by
    field_simp
  rw [this, Real.exp_log (by linarith)]
  ring

/-! ### The realtime filter -/

/-- History of calls on a filter that stays at one channel. -/
def SingleChannel (h : List (Op ℝ)) : Prop := ∀ n, Op.setChannels n ∈ h → n = 1

theorem process_one (up down y x : ℝ) :
    ((averageFilter up down).process [y] x 0).1 = .ok (step up down y x) ∧
    ((averageFilter up down).process [y] x 0).2 = [step up down y x] := by
  have h1 : (averageFilter up down).process [y] x 0 =
      (.ok (if x > y then x * up + (1 - up) * y else x * down + (1 - down) * y),
        [if x > y then x * up + (1 - up) * y else x * down + (1 - down) * y]) := rfl
  have h2 : (if x > y then x * up + (1 - up) * y else x * down + (1 - down) * y) =
      step up down y x := by
    unfold step
    split_ifs <;> ring
  rw [h1, h2]
  exact ⟨rfl, rfl⟩

/-- The state is the smoothed value of the inputs since the last reset, with 0 as start. -/
theorem averageFilter_state (up down : ℝ) (hu : 0 ≤ up ∧ up ≤ 1) (hd : 0 ≤ down ∧ down ≤ 1)
    (h : List (Op ℝ)) (hs : SingleChannel h) (lo hi : ℝ) (h0 : lo ≤ 0 ∧ 0 ≤ hi)
    (hx : ∀ x, Op.sample x 0 ∈ h → lo ≤ x ∧ x ≤ hi) :
    ∃ y, (averageFilter up down).after h = [y] ∧ lo ≤ y ∧ y ≤ hi := by
  induction h using List.reverseRecOn with
  | nil => exact ⟨0, rfl, h0.1, h0.2⟩
  | append_singleton h op ih =>
    obtain ⟨y, hy, hy1, hy2⟩ := ih (fun n hn => hs n (by simp [hn])) (fun x hm => hx x (by simp [hm]))
    have hstep : (averageFilter up down).after (h ++ [op]) =
        (averageFilter up down).exec ((averageFilter up down).after h) op := by
      simp [RTFilter.after]
    rw [hstep, hy]
    cases op with
    | reset => exact ⟨0, rfl, h0.1, h0.2⟩
    | setChannels n =>
      obtain rfl := hs n (by simp)
      exact ⟨0, rfl, h0.1, h0.2⟩
    | sample x ch =>
      rcases Nat.eq_zero_or_pos ch with rfl | hch
      · have hb := step_between up down y x hu hd lo hi ⟨hy1, hy2⟩ (hx x (by simp))
        refine ⟨step up down y x, ?_, hb⟩
        exact (process_one up down y x).2
      · refine ⟨y, ?_, hy1, hy2⟩
        have : ¬ (2 ≤ [y].length) := by simp
        have h2 : [y].length ≤ ch := hch
        simp only [RTFilter.exec, averageFilter, if_neg this, if_pos h2]

/-- The output of the filter with one channel stays in every interval that contains the inputs
and 0, its initial state. -/
theorem C44_realtime_range_partial (up down : ℝ) (hu : 0 ≤ up ∧ up ≤ 1) (hd : 0 ≤ down ∧ down ≤ 1)
    (h : List (Op ℝ)) (hs : SingleChannel h) (lo hi : ℝ) (h0 : lo ≤ 0 ∧ 0 ≤ hi)
    (hx : ∀ x, Op.sample x 0 ∈ h → lo ≤ x ∧ x ≤ hi) (x : ℝ) (hx' : lo ≤ x ∧ x ≤ hi) :
    ∃ y, (averageFilter up down).answer h x 0 = .ok y ∧ lo ≤ y ∧ y ≤ hi := by
  obtain ⟨y, hy, hb⟩ := averageFilter_state up down hu hd h hs lo hi h0 hx
  refine ⟨step up down y x, ?_, step_between up down y x hu hd lo hi hb hx'⟩
  rw [RTFilter.answer, hy]
  exact (process_one up down y x).1

/-- A constant input is not returned unchanged: the filter starts at 0. -/
theorem C44_realtime_constant (up down : ℝ) (hu : up < 1) :
    (averageFilter up down).answer [] 1 0 ≠ .ok 1 := by
  have : (averageFilter up down).answer [] 1 0 = .ok up := by
    simp [RTFilter.answer, RTFilter.after, averageFilter]
  rw [this]
  intro h
  have := Except.ok.inj h
  linarith

/-- With more than one channel every call raises. -/
theorem C44_realtime_multichannel (up down : ℝ) (n : ℕ) (hn : 2 ≤ n) (x : ℝ) (ch : ℕ) :
    (averageFilter up down).answer [.setChannels n] x ch = .error .valueError := by
  simp [RTFilter.answer, RTFilter.after, RTFilter.exec, averageFilter, hn]

/-- Concrete case: a signal of two samples. -/
example : ∃ y, timeSmoothing ⟨2, 1, fun r _ => r⟩ 48000 0.1 (some 0.2) = .ok y ∧
    LineWithin ⟨2, 1, fun r _ => r⟩ 1 0 0 1 := by
  obtain ⟨y, hy⟩ := C44_accepts ⟨2, 1, fun r _ => r⟩ 48000 0.1 (some 0.2) (by decide) (by decide)
    (by norm_num) (by intro d hd; cases hd; norm_num)
  refine ⟨y, hy, ?_⟩
  unfold LineWithin
  simp only
  rw [if_neg (by norm_num)]
  intro n hn
  interval_cases n <;> norm_num

end Verif.Smoothing
