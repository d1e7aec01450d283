import Verif.Model.ConvolveRir
import Verif.Lemmas.SignalData
import Verif.Lemmas.Peak

/-!
# C122: room impulse responses applied to signals
-/

namespace Verif.ConvolveRir

open SignalData

/-! ### Specification -/

/-- Sample `n` of channel `c` of the convolution of a signal with an impulse response. -/
noncomputable def convolved (s rir : State ℝ) (n c : ℕ) : ℝ :=
  ∑ k ∈ Finset.range (n + 1), rir.sample k 0 * s.sample (n - k) c

/-- `P` is the largest magnitude of the first `N` samples of channel `c`. -/
def IsChannelPeak (N : ℕ) (x : ℕ → ℝ) (P : ℝ) : Prop := (∀ n < N, |x n| ≤ P) ∧ ∃ n < N, |x n| = P

/-- A signal and a response that fit. -/
structure Fits (s rir : State ℝ) : Prop where
  one : rir.re.cols = 1
  response : 1 ≤ rir.re.rows
  channels : 1 ≤ s.re.cols
  tall : s.re.cols ≤ s.re.rows
  long : 2 ≤ s.re.rows

/-- The number of samples of the result. -/
def resultLength (s rir : State ℝ) (keepLength : Bool) : ℕ :=
  if keepLength then s.re.rows else s.re.rows + rir.re.rows - 1

/-! ### Lemmas -/

theorem full_eq (s rir : State ℝ) (h : Fits s rir) (n c : ℕ) (hc : c < s.re.cols) :
    full s.re.rows rir.re.rows (fun n => s.re.val n c) (fun k => rir.re.val k 0) n =
      convolved s rir n c := by
  have hs : ∀ r, s.sample r c = if r < s.re.rows then s.re.val r c else 0 := by
    intro r
    simp [State.sample, hc]
  have hr : ∀ k, rir.sample k 0 = if k < rir.re.rows then rir.re.val k 0 else 0 := by
    intro k
    simp [State.sample, h.one]
  unfold full convolved
  rw [← Finset.sum_filter, ← Finset.sum_filter_add_sum_filter_not (Finset.range (n + 1))
    (fun k => k < rir.re.rows ∧ n - k < s.re.rows)]
  have h0 : ∑ k ∈ (Finset.range (n + 1)).filter (fun k => ¬ (k < rir.re.rows ∧ n - k < s.re.rows)),
      rir.sample k 0 * s.sample (n - k) c = 0 := by
    refine Finset.sum_eq_zero fun k hk => ?_
    have := (Finset.mem_filter.1 hk).2
    rw [hs, hr]
    by_cases h1 : k < rir.re.rows
    · rw [if_neg (show ¬ n - k < s.re.rows from fun h2 => this ⟨h1, h2⟩), mul_zero]
    · rw [if_neg h1, zero_mul]
  rw [h0, add_zero]
  refine Finset.sum_congr ?_ fun k hk => ?_
  · ext k
    simp only [Finset.mem_filter, Finset.mem_range]
    omega
  · have := (Finset.mem_filter.1 hk).2
    rw [hs, hr, if_pos this.1, if_pos this.2]

theorem result_tall (s rir : State ℝ) (h : Fits s rir) (keepLength : Bool) :
    s.re.cols ≤ resultLength s rir keepLength ∧ 2 ≤ resultLength s rir keepLength := by
  have := h.tall
  have := h.long
  have := h.response
  unfold resultLength
  split_ifs <;> omega

theorem maxAbs_range (N : ℕ) (hN : 0 < N) (x : ℕ → ℝ) :
    IsChannelPeak N x (Level.maxAbs ((List.range N).map fun (n : ℕ) => x n)) := by
  constructor
  · intro n hn
    exact Level.le_maxAbs _ _ (List.mem_map.2 ⟨n, List.mem_range.2 hn, rfl⟩)
  · obtain ⟨v, hv, h⟩ := Level.maxAbs_attained ((List.range N).map fun (n : ℕ) => x n) (by
      intro h0
      have := congrArg List.length h0
      simp at this
      omega)
    obtain ⟨n, hn, rfl⟩ := List.mem_map.1 hv
    exact ⟨n, List.mem_range.1 hn, h⟩

theorem peak_unique (N : ℕ) (x : ℕ → ℝ) (P Q : ℝ) (h : IsChannelPeak N x P) (h' : IsChannelPeak N x Q) :
    P = Q := by
  obtain ⟨n, hn, rfl⟩ := h.2
  obtain ⟨m, hm, rfl⟩ := h'.2
  exact le_antisymm (h'.1 n hn) (h.1 m hm)

theorem maxAbs_of_peak (N : ℕ) (x : ℕ → ℝ) (P : ℝ) (h : IsChannelPeak N x P) :
    Level.maxAbs ((List.range N).map fun (n : ℕ) => x n) = P := by
  obtain ⟨n, hn, -⟩ := h.2
  exact peak_unique N x _ _ (maxAbs_range N (by omega) x) h

/-! ### The properties -/

/-- Without `keep_peak_level`: the convolution, as long as the signal or in full, of a signal whose
amplitude is not constrained. -/
theorem C122_convolution (s rir : State ℝ) (fs : ℕ) (keepLength : Bool) (h : Fits s rir)
    (hcon : s.constrain = false) :
    ∃ t nan, convolveRir s rir fs fs false keepLength = .ok (t, nan) ∧
      t.HasShape (resultLength s rir keepLength) s.re.cols ∧ (∀ c, ¬ nan c) ∧
      ∀ n < resultLength s rir keepLength, ∀ c < s.re.cols, t.sample n c = convolved s rir n c := by
  obtain ⟨h1, h2⟩ := result_tall s rir h keepLength
  unfold convolveRir
  rw [if_neg (not_not.2 h.one), if_neg (by simp), if_neg (by have := h.response; omega)]
  simp only [Bool.false_eq_true, if_false, false_and]
  rw [copyWith_ok s _ (by exact h1) (by
    rintro ⟨h3, -⟩
    change resultLength s rir keepLength = 1 at h3
    omega) (by rw [hcon]; simp)]
  refine ⟨_, _, rfl, ⟨rfl, rfl⟩, fun c => id, fun n hn c hc => ?_⟩
  · have e : State.sample ⟨Input.reMat ⟨resultLength s rir keepLength, s.re.cols, fun n c =>
        full s.re.rows rir.re.rows (fun n => s.re.val n c) (fun k => rir.re.val k 0) n, none⟩,
        Input.imMat ⟨resultLength s rir keepLength, s.re.cols, fun n c =>
        full s.re.rows rir.re.rows (fun n => s.re.val n c) (fun k => rir.re.val k 0) n, none⟩,
        s.constrain, 1⟩ n c = full s.re.rows rir.re.rows (fun n => s.re.val n c) (fun k => rir.re.val k 0) n := by
      simp [State.sample, Input.reMat, hn, hc]
    rw [← full_eq s rir h n c hc, ← e]
    rfl

/-- Without `keep_peak_level`, a signal of constrained amplitude: one factor for all channels, at most 1,
so that no sample exceeds 1. -/
theorem C122_constrained (s rir : State ℝ) (fs : ℕ) (keepLength : Bool) (h : Fits s rir)
    (hcon : s.constrain = true) :
    ∃ t nan g, convolveRir s rir fs fs false keepLength = .ok (t, nan) ∧
      t.HasShape (resultLength s rir keepLength) s.re.cols ∧ (∀ c, ¬ nan c) ∧ 0 < g ∧ g ≤ 1 ∧
      (∀ n < resultLength s rir keepLength, ∀ c < s.re.cols,
        t.sample n c = g * convolved s rir n c ∧ |t.sample n c| ≤ 1) ∧
      (g < 1 → ∃ n < resultLength s rir keepLength, ∃ c < s.re.cols, |t.sample n c| = 1) := by
  obtain ⟨h1, h2⟩ := result_tall s rir h keepLength
  obtain ⟨x, hx⟩ : ∃ x : Input ℝ, x = ⟨resultLength s rir keepLength, s.re.cols, fun n c =>
    full s.re.rows rir.re.rows (fun n => s.re.val n c) (fun k => rir.re.val k 0) n, none⟩ := ⟨_, rfl⟩
  have hr : x.rows = resultLength s rir keepLength := by rw [hx]
  have hcl : x.cols = s.re.cols := by rw [hx]
  have hre : ∀ n c, c < s.re.cols → x.re n c = convolved s rir n c := by
    intro n c hc
    rw [hx]
    exact full_eq s rir h n c hc
  have him : x.im = none := by rw [hx]
  have hpk := C14_peak_is_largest x
  obtain ⟨t, e, -, hs, hsc, hsm, -, -⟩ := setData_scaled { s with scale := 1 } x (by rw [hr, hcl]; exact h1)
    (by rw [hr]; omega) (by rw [hcl]; exact h.channels)
  have hrun : convolveRir s rir fs fs false keepLength = .ok (t, fun _ => False) := by
    unfold convolveRir
    rw [if_neg (not_not.2 h.one), if_neg (by simp), if_neg (by have := h.response; omega)]
    simp only [Bool.false_eq_true, if_false, false_and]
    have e' : copyWith s ⟨if keepLength = true then s.re.rows else s.re.rows + rir.re.rows - 1, s.re.cols,
        fun n c => full s.re.rows rir.re.rows (fun n => s.re.val n c) (fun k => rir.re.val k 0) n, none⟩ =
        .ok t := by
      rw [← e, hx]
      rfl
    rw [e']
  rw [hr, hcl] at hs
  rw [hr, hcl] at hsm
  simp only [hcon, true_and] at hsc
  by_cases hp : 1 < peak x
  · rw [if_pos hp] at hsc
    have hp0 : 0 < peak x := by linarith
    refine ⟨t, _, t.scale, hrun, hs, fun _ => id, by rw [hsc]; positivity, ?_, fun n hn c hc => ?_, fun _ => ?_⟩
    · rw [hsc, div_le_one hp0]
      exact hp.le
    · rw [hsm n hn c hc, hre n c hc]
      refine ⟨rfl, ?_⟩
      rw [hsc, abs_mul, abs_of_pos (by positivity), one_div_mul_eq_div, div_le_one hp0, ← hre n c hc]
      exact hpk.1 n (by rw [hr]; exact hn) c (by rw [hcl]; exact hc)
    · rcases hpk.2.2 with h0 | ⟨n, hn, c, hc, h3 | ⟨f, h3, -⟩⟩
      · linarith
      · rw [hr] at hn
        rw [hcl] at hc
        refine ⟨n, hn, c, hc, ?_⟩
        rw [hsm n hn c hc, hsc, abs_mul, abs_of_pos (by positivity), ← h3, one_div_mul_cancel hp0.ne']
      · rw [him] at h3
        cases h3
  · rw [if_neg hp] at hsc
    refine ⟨t, _, 1, hrun, hs, fun _ => id, one_pos, le_rfl, fun n hn c hc => ?_, fun h => absurd h (lt_irrefl _)⟩
    rw [hsm n hn c hc, hsc, hre n c hc]
    refine ⟨rfl, ?_⟩
    rw [one_mul, ← hre n c hc]
    exact (hpk.1 n (by rw [hr]; exact hn) c (by rw [hcl]; exact hc)).trans (not_lt.1 hp)

/-- With `keep_peak_level`: the convolution times a factor for each channel, which keeps the peaks. -/
theorem C122_peak_partial (s rir : State ℝ) (fs : ℕ) (keepLength : Bool) (h : Fits s rir)
    (hcon : s.constrain = true → ∀ n < s.re.rows, ∀ c < s.re.cols, |s.sample n c| ≤ 1)
    (hne : ∀ c < s.re.cols, ∃ n < resultLength s rir keepLength, convolved s rir n c ≠ 0) :
    ∃ t nan, convolveRir s rir fs fs true keepLength = .ok (t, nan) ∧
      t.HasShape (resultLength s rir keepLength) s.re.cols ∧ (∀ c < s.re.cols, ¬ nan c) ∧
      ∀ c < s.re.cols, ∀ P Q, IsChannelPeak s.re.rows (fun n => s.sample n c) P →
        IsChannelPeak (resultLength s rir keepLength) (fun n => convolved s rir n c) Q →
        0 < Q ∧ (∀ n < resultLength s rir keepLength, t.sample n c = convolved s rir n c * (P / Q)) ∧
        IsChannelPeak (resultLength s rir keepLength) (fun n => t.sample n c) P := by
  obtain ⟨h1, h2⟩ := result_tall s rir h keepLength
  obtain ⟨L, hL⟩ : ∃ L, L = resultLength s rir keepLength := ⟨_, rfl⟩
  rw [← hL] at h1 h2 hne ⊢
  have hold : ∀ c < s.re.cols, ∀ P, IsChannelPeak s.re.rows (fun n => s.sample n c) P →
      Level.maxAbs (colOf s.re c) = P := by
    intro c hc P hP
    have e : colOf s.re c = (List.range s.re.rows).map fun (n : ℕ) => s.sample n c := by
      unfold colOf
      refine List.map_congr_left fun r hr => ?_
      simp [State.sample, List.mem_range.1 hr, hc]
    rw [e]
    exact maxAbs_of_peak _ _ P hP
  have hnew : ∀ c < s.re.cols, ∀ Q, IsChannelPeak L (fun n => convolved s rir n c) Q →
      Level.maxAbs ((List.range L).map fun (n : ℕ) =>
        full s.re.rows rir.re.rows (fun n => s.re.val n c) (fun k => rir.re.val k 0) n) = Q := by
    intro c hc Q hQ
    simp only [full_eq s rir h _ c hc]
    exact maxAbs_of_peak _ _ Q hQ
  have hpos : ∀ c < s.re.cols, ∀ Q, IsChannelPeak L (fun n => convolved s rir n c) Q → 0 < Q := by
    intro c hc Q hQ
    obtain ⟨n, hn, h0⟩ := hne c hc
    exact lt_of_lt_of_le (abs_pos.2 h0) (hQ.1 n hn)
  have hz : ∀ c < s.re.cols, ∀ P Q, IsChannelPeak s.re.rows (fun n => s.sample n c) P →
      IsChannelPeak L (fun n => convolved s rir n c) Q → ∀ n,
      full s.re.rows rir.re.rows (fun n => s.re.val n c) (fun k => rir.re.val k 0) n *
        (Level.maxAbs (colOf s.re c) / Level.maxAbs ((List.range L).map fun (n : ℕ) =>
        full s.re.rows rir.re.rows (fun n => s.re.val n c) (fun k => rir.re.val k 0) n)) =
        convolved s rir n c * (P / Q) := by
    intro c hc P Q hP hQ n
    rw [hold c hc P hP, hnew c hc Q hQ, full_eq s rir h n c hc]
  have hpk : ∀ c < s.re.cols, ∀ P Q, IsChannelPeak s.re.rows (fun n => s.sample n c) P →
      IsChannelPeak L (fun n => convolved s rir n c) Q →
      IsChannelPeak L (fun n => convolved s rir n c * (P / Q)) P := by
    intro c hc P Q hP hQ
    have hQ0 := hpos c hc Q hQ
    have hP0 : 0 ≤ P := by
      obtain ⟨n, -, h⟩ := hP.2
      exact h ▸ abs_nonneg _
    have e : ∀ n, |convolved s rir n c * (P / Q)| = |convolved s rir n c| / Q * P := by
      intro n
      rw [abs_mul, abs_of_nonneg (div_nonneg hP0 hQ0.le)]
      ring
    constructor
    · intro n hn
      beta_reduce
      rw [e]
      have : |convolved s rir n c| / Q ≤ 1 := (div_le_one hQ0).2 (hQ.1 n hn)
      nlinarith
    · obtain ⟨n, hn, hq⟩ := hQ.2
      refine ⟨n, hn, ?_⟩
      beta_reduce at hq ⊢
      rw [e, hq, div_self hQ0.ne', one_mul]
  have hexP : ∀ c, ∃ P, IsChannelPeak s.re.rows (fun n => s.sample n c) P :=
    fun c => ⟨_, maxAbs_range _ (by have := h.long; omega) _⟩
  have hexQ : ∀ c, ∃ Q, IsChannelPeak L (fun n => convolved s rir n c) Q :=
    fun c => ⟨_, maxAbs_range _ (by omega) _⟩
  unfold convolveRir
  rw [if_neg (not_not.2 h.one), if_neg (by simp), if_neg (by have := h.response; omega)]
  simp only [if_true, true_and]
  rw [show (if keepLength = true then s.re.rows else s.re.rows + rir.re.rows - 1) = L from hL.symm]
  rw [copyWith_ok s _ h1 (by rintro ⟨h3, -⟩; dsimp only at h3; omega) (by
    intro hc1
    refine ⟨h.channels, fun r hr c hc => ?_, by simp⟩
    obtain ⟨P, hP⟩ := hexP c
    obtain ⟨Q, hQ⟩ := hexQ c
    dsimp only at hr hc ⊢
    rw [hz c hc P Q hP hQ r]
    refine ((hpk c hc P Q hP hQ).1 r hr).trans ?_
    obtain ⟨n, hn, hp⟩ := hP.2
    rw [← hp]
    exact hcon hc1 n hn c hc)]
  refine ⟨_, _, rfl, ⟨rfl, rfl⟩, fun c hc => ?_, fun c hc P Q hP hQ => ?_⟩
  · obtain ⟨Q, hQ⟩ := hexQ c
    rw [hnew c hc Q hQ]
    exact (hpos c hc Q hQ).ne'
  · have e : ∀ n < L, State.sample ⟨Input.reMat ⟨L, s.re.cols, fun n c =>
        full s.re.rows rir.re.rows (fun n => s.re.val n c) (fun k => rir.re.val k 0) n *
        (Level.maxAbs (colOf s.re c) / Level.maxAbs ((List.range L).map fun (n : ℕ) =>
        full s.re.rows rir.re.rows (fun n => s.re.val n c) (fun k => rir.re.val k 0) n)), none⟩,
        Input.imMat ⟨L, s.re.cols, fun n c =>
        full s.re.rows rir.re.rows (fun n => s.re.val n c) (fun k => rir.re.val k 0) n *
        (Level.maxAbs (colOf s.re c) / Level.maxAbs ((List.range L).map fun (n : ℕ) =>
        full s.re.rows rir.re.rows (fun n => s.re.val n c) (fun k => rir.re.val k 0) n)), none⟩,
        s.constrain, 1⟩ n c = convolved s rir n c * (P / Q) := by
      intro n hn
      rw [← hz c hc P Q hP hQ n]
      simp [State.sample, Input.reMat, hn, hc]
    refine ⟨hpos c hc Q hQ, e, ?_⟩
    obtain ⟨h3, n, hn, h4⟩ := hpk c hc P Q hP hQ
    refine ⟨fun n hn => ?_, n, hn, ?_⟩
    · exact (congrArg abs (e n hn)).trans_le (h3 n hn)
    · exact (congrArg abs (e n hn)).trans h4

/-- The gain of the response does not matter if the peaks are kept. -/
theorem C122_gain (s rir : State ℝ) (fs : ℕ) (keepLength : Bool) (g : ℝ) (hg : 0 < g) (h1 : rir.re.cols = 1)
    (h2 : rir.re.rows ≠ 0) :
    convolveRir s { rir with re := ⟨rir.re.rows, 1, fun k c => g * rir.re.val k c⟩ } fs fs true
      keepLength = convolveRir s rir fs fs true keepLength := by
  have hf : ∀ c n, full s.re.rows rir.re.rows (fun n => s.re.val n c) (fun k => g * rir.re.val k 0) n =
      full s.re.rows rir.re.rows (fun n => s.re.val n c) (fun k => rir.re.val k 0) n * g := by
    intro c n
    unfold full
    rw [Finset.sum_mul]
    refine Finset.sum_congr rfl fun k _ => ?_
    split_ifs
    · ring
    · ring
  have hm : ∀ L c, Level.maxAbs ((List.range L).map fun (n : ℕ) =>
      full s.re.rows rir.re.rows (fun n => s.re.val n c) (fun k => rir.re.val k 0) n * g) =
      Level.maxAbs ((List.range L).map fun (n : ℕ) =>
      full s.re.rows rir.re.rows (fun n => s.re.val n c) (fun k => rir.re.val k 0) n) * g := by
    intro L c
    have := Level.maxAbs_scale ((List.range L).map fun (n : ℕ) =>
      full s.re.rows rir.re.rows (fun n => s.re.val n c) (fun k => rir.re.val k 0) n) g
    rw [List.map_map, abs_of_pos hg] at this
    exact this
  have hq : ∀ y a b : ℝ, y * g * (a / (b * g)) = y * (a / b) := by
    intro y a b
    by_cases hb : b = 0
    · simp [hb]
    · field_simp
  unfold convolveRir
  rw [if_neg (by simp), if_neg (by simp), if_neg (by simpa using h2), if_neg (not_not.2 h1),
    if_neg (by simp), if_neg h2]
  simp only [if_true, true_and, hf]
  simp only [hm, hq, mul_eq_zero, hg.ne', or_false]

/-- A response that is a single 1 changes nothing. -/
theorem C122_identity (s rir : State ℝ) (fs : ℕ) (keepPeak keepLength : Bool) (h : Fits s rir)
    (h1 : rir.re.rows = 1) (hv : rir.re.val 0 0 = 1)
    (hcon : s.constrain = true → ∀ n < s.re.rows, ∀ c < s.re.cols, |s.sample n c| ≤ 1)
    (hne : ∀ c < s.re.cols, ∃ n < s.re.rows, s.sample n c ≠ 0) :
    ∃ t nan, convolveRir s rir fs fs keepPeak keepLength = .ok (t, nan) ∧
      t.HasShape s.re.rows s.re.cols ∧ (∀ c < s.re.cols, ¬ nan c) ∧
      ∀ n < s.re.rows, ∀ c < s.re.cols, t.sample n c = s.sample n c := by
  have hr : ∀ k, rir.sample k 0 = if k = 0 then 1 else 0 := by
    intro k
    by_cases hk : k = 0
    · simp [State.sample, h.one, h1, hk, hv]
    · simp [State.sample, h.one, h1, hk]
  have hcv : ∀ n c, convolved s rir n c = s.sample n c := by
    intro n c
    unfold convolved
    simp only [hr]
    simp
  have hl : resultLength s rir keepLength = s.re.rows := by
    unfold resultLength
    split_ifs <;> omega
  cases keepPeak with
  | true =>
    obtain ⟨t, nan, e, hs, hn, hx⟩ := C122_peak_partial s rir fs keepLength h hcon (by
      rw [hl]
      simpa only [hcv] using hne)
    rw [hl] at hs hx
    refine ⟨t, nan, e, hs, hn, fun n hn c hc => ?_⟩
    have hP := maxAbs_range s.re.rows (by omega) (fun n => s.sample n c)
    obtain ⟨h3, h4, -⟩ := hx c hc _ _ hP (by simpa only [hcv] using hP)
    rw [h4 n hn, div_self h3.ne', mul_one, hcv]
  | false =>
    obtain ⟨L, hL⟩ : ∃ L, L = resultLength s rir keepLength := ⟨_, rfl⟩
    have h2 := (result_tall s rir h keepLength)
    unfold convolveRir
    rw [if_neg (not_not.2 h.one), if_neg (by simp), if_neg (by omega)]
    simp only [Bool.false_eq_true, if_false, false_and]
    rw [show (if keepLength = true then s.re.rows else s.re.rows + rir.re.rows - 1) = s.re.rows from hl]
    have hf : ∀ n c, c < s.re.cols →
        full s.re.rows rir.re.rows (fun n => s.re.val n c) (fun k => rir.re.val k 0) n =
          s.sample n c := fun n c hc => (full_eq s rir h n c hc).trans (hcv n c)
    rw [copyWith_ok s _ h.tall (by
      rintro ⟨h3, -⟩
      dsimp only at h3
      have := h.long
      omega) (by
      intro hc1
      refine ⟨h.channels, fun r hr c hc => ?_, by simp⟩
      dsimp only at hr hc ⊢
      rw [hf r c hc]
      exact hcon hc1 r hr c hc)]
    refine ⟨_, _, rfl, ⟨rfl, rfl⟩, fun c _ => id, fun n hn c hc => ?_⟩
    rw [← hf n c hc]
    simp [State.sample, Input.reMat, hn, hc]

/-- A channel whose convolution is silent consists of `nan` if the peaks are kept. -/
theorem C122_silence_wrong (s rir : State ℝ) (fs : ℕ) (keepLength : Bool) (h : Fits s rir) (c : ℕ)
    (hc : c < s.re.cols)
    (hz : ∀ n < resultLength s rir keepLength, convolved s rir n c = 0) (t : State ℝ) (nan : ℕ → Prop)
    (hok : convolveRir s rir fs fs true keepLength = .ok (t, nan)) : nan c := by
  unfold convolveRir at hok
  rw [if_neg (not_not.2 h.one), if_neg (by simp), if_neg (by have := h.response; omega)] at hok
  simp only [if_true, true_and] at hok
  split at hok
  · cases hok
  · cases hok
    refine (Level.maxAbs_zero_iff _).2 fun v hv => ?_
    obtain ⟨n, hn, rfl⟩ := List.mem_map.1 hv
    rw [full_eq s rir h n c hc]
    exact hz n (List.mem_range.1 hn)

/-- In particular a silent channel of the signal, or all channels if the response starts later than the
signal ends and the length is kept. -/
theorem C122_silence_cases (s rir : State ℝ) (c : ℕ) :
    ((∀ n, s.sample n c = 0) → ∀ n, convolved s rir n c = 0) ∧
    ((∀ k < s.re.rows, rir.sample k 0 = 0) →
      ∀ n < resultLength s rir true, convolved s rir n c = 0) := by
  constructor
  · intro h n
    unfold convolved
    simp [h]
  · intro h n hn
    unfold convolved
    refine Finset.sum_eq_zero fun k hk => ?_
    have := Finset.mem_range.1 hk
    have hn' : n < s.re.rows := hn
    rw [h k (by omega), zero_mul]

/-- Responses with several channels or another sampling rate are refused. -/
theorem C122_rejects (s rir : State ℝ) (fs fsRir : ℕ) (keepPeak keepLength : Bool) :
    (rir.re.cols ≠ 1 → convolveRir s rir fs fsRir keepPeak keepLength = .error .assertionError) ∧
    (fsRir ≠ fs → convolveRir s rir fs fsRir keepPeak keepLength = .error .assertionError) := by
  constructor
  · intro h
    unfold convolveRir
    rw [if_pos h]
  · intro h
    unfold convolveRir
    rw [if_pos h]
    split_ifs <;> rfl

/-! ### The hypotheses can be met -/

/-- Two samples `1, 2` and the response `1, 1`: `1, 3, 2` in full; `2/3, 2` with the peak and the length
kept. -/
example : ∃ s rir : State ℝ, Fits s rir ∧ convolved s rir 0 0 = 1 ∧ convolved s rir 1 0 = 3 ∧
    convolved s rir 2 0 = 2 ∧ IsChannelPeak s.re.rows (fun n => s.sample n 0) 2 ∧
    IsChannelPeak (resultLength s rir true) (fun n => convolved s rir n 0) 3 := by
  refine ⟨⟨⟨2, 1, fun n _ => n + 1⟩, none, false, 1⟩, ⟨⟨2, 1, fun _ _ => 1⟩, none, false, 1⟩,
    ⟨rfl, by simp, by simp, by simp, by simp⟩, ?_, ?_, ?_, ⟨?_, 1, by simp, ?_⟩, ⟨?_, 1, by simp [resultLength], ?_⟩⟩
  · (simp only [convolved, Finset.sum_range_succ, Finset.sum_range_zero]; norm_num [State.sample])
  · (simp only [convolved, Finset.sum_range_succ, Finset.sum_range_zero]; norm_num [State.sample])
  · (simp only [convolved, Finset.sum_range_succ, Finset.sum_range_zero]; norm_num [State.sample])
  · intro n hn
    have : n < 2 := hn
    interval_cases n <;> norm_num [State.sample]
  · norm_num [State.sample]
  · intro n hn
    have : n < 2 := hn
    interval_cases n <;> (simp only [convolved, Finset.sum_range_succ, Finset.sum_range_zero]; norm_num [State.sample])
  · (simp only [convolved, Finset.sum_range_succ, Finset.sum_range_zero]; norm_num [State.sample])

end Verif.ConvolveRir
