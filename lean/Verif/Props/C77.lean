import Verif.Model.FractionalDelay
import Verif.Props.C19
import Mathlib.Analysis.SpecialFunctions.Exponential
import Mathlib.Analysis.SpecialFunctions.Trigonometric.Sinc

/-!
# C77: fractional delay
-/

namespace Verif.FractionalDelay

open Verif.SignalData Finset

/-! ### Specification -/

/-- The modified Bessel function of the first kind and order zero of the square root of `q` (for
negative `q` the Bessel function of an imaginary argument): `Σ (√q / 2) ^ (2 k) / (k!)²`. -/
noncomputable def besselI0 (q : ℝ) : ℝ := ∑' k : ℕ, q ^ k / (2 ^ k * k.factorial : ℝ) ^ 2

/-- The shape of the Kaiser window for a side lobe suppression of `|A|` dB. -/
noncomputable def shape (A : ℝ) : ℝ :=
  if |A| < 21 then 0
  else if |A| ≤ 50 then 0.5842 * (|A| - 21) ^ (2 / 5 : ℝ) + 0.07886 * (|A| - 21)
  else 0.1102 * (|A| - 8.7)

/-- The Kaiser window as a function of time, for the width `order`. -/
noncomputable def window (order : ℕ) (A t : ℝ) : ℝ :=
  besselI0 (shape A ^ 2 * (1 - (2 * t / order) ^ 2)) / besselI0 (shape A ^ 2)

/-- The kernel of the interpolation: the windowed sinc function, zero outside of `order + 1` samples. -/
noncomputable def kernel (order : ℕ) (A t : ℝ) : ℝ :=
  if -((order : ℝ) + 1) / 2 ≤ t ∧ t < ((order : ℝ) + 1) / 2 then
    Real.sinc (Real.pi * t) * window order A t
  else 0

/-! ### The kernel -/

theorem beta_eq (A : ℝ) : beta A = shape A := by
  unfold beta shape
  by_cases h1 : |A| < 21
  · rw [if_pos h1, if_neg (by linarith), if_neg (by linarith)]
  · rw [if_neg h1]
    by_cases h2 : |A| ≤ 50
    · rw [if_neg (by linarith), if_pos h2, if_pos (by linarith)]
      norm_num
    · rw [if_pos (by linarith), if_neg h2]

theorem bessel_eq (q : ℝ) : bessel q = besselI0 q := by
  unfold bessel besselI0
  refine tsum_congr fun k => ?_
  rw [div_pow, mul_pow, ← pow_mul, mul_comm k 2, pow_mul, div_div]
  norm_num

theorem sinc_eq (t : ℝ) : sinc t = Real.sinc (Real.pi * t) := by
  unfold sinc
  rw [Real.sinc_apply]
  refine if_congr ?_ rfl rfl
  rw [mul_eq_zero, or_iff_right Real.pi_ne_zero]

theorem window_eq (order : ℕ) (A t : ℝ) : window order A t =
    bessel (beta A ^ 2 * (1 - (t / (order / 2)) ^ 2)) / bessel (beta A ^ 2) := by
  unfold window
  rw [bessel_eq, bessel_eq, beta_eq, div_div_eq_mul_div, mul_comm t 2]

theorem kernel_eq (order : ℕ) (A t : ℝ) : kernel order A t =
    if -((order : ℝ) + 1) / 2 ≤ t ∧ t < ((order : ℝ) + 1) / 2 then sinc t * window order A t else 0 := by
  rw [sinc_eq]
  rfl

theorem bessel_summable (x : ℝ) : Summable fun k : ℕ => (x / 4) ^ k / (k.factorial : ℝ) ^ 2 := by
  refine Summable.of_norm_bounded (g := fun k : ℕ => |x / 4| ^ k / (k.factorial : ℝ))
    (Real.summable_pow_div_factorial _) fun k => ?_
  have h1 : (1 : ℝ) ≤ k.factorial := by exact_mod_cast k.factorial_pos
  have h2 : ‖(k.factorial : ℝ) ^ 2‖ = (k.factorial : ℝ) ^ 2 := by
    rw [Real.norm_eq_abs, abs_of_nonneg (by positivity)]
  rw [norm_div, norm_pow, Real.norm_eq_abs, h2]
  exact div_le_div_of_nonneg_left (by positivity) (by linarith) (by nlinarith)

theorem bessel_pos (x : ℝ) (hx : 0 ≤ x) : 0 < bessel x := by
  unfold bessel
  refine (bessel_summable x).tsum_pos (fun k => by positivity) 0 (by simp)

theorem sinc_int (n : ℤ) : sinc n = if n = 0 then 1 else 0 := by
  unfold sinc
  by_cases h : n = 0
  · rw [if_pos (by exact_mod_cast h), if_pos h]
  · rw [if_neg (by exact_mod_cast h), if_neg h, mul_comm Real.pi, Real.sin_int_mul_pi, zero_div]

/-- The kernel interpolates: it is 1 at 0 and 0 at all other integers. -/
theorem C77_kernel (order : ℕ) (A : ℝ) (n : ℤ) : kernel order A n = if n = 0 then 1 else 0 := by
  rw [kernel_eq, sinc_int]
  by_cases h : n = 0
  · subst h
    rw [if_pos rfl, if_pos, one_mul, window_eq, Int.cast_zero, zero_div]
    · have := (bessel_pos (beta A ^ 2) (by positivity)).ne'
      norm_num
      exact this
    · have : (0 : ℝ) ≤ order := Nat.cast_nonneg _
      rw [Int.cast_zero]
      constructor <;> linarith
  · rw [if_neg h, zero_mul, ite_self]

/-! ### The filter -/

theorem frac_bounds (d : ℝ) (hd : 0 ≤ d) : 0 ≤ d - (⌊d⌋₊ : ℝ) ∧ d - (⌊d⌋₊ : ℝ) < 1 := by
  have h1 := Nat.floor_le hd
  have h2 := Nat.lt_floor_add_one d
  constructor <;> linarith

theorem delayFilter_length (d : ℝ) (order : ℕ) (A : ℝ) :
    (delayFilter d order A).2.length = order + 1 := by
  simp [delayFilter, kaiser]

theorem delayFilter_getD (d : ℝ) (order : ℕ) (A : ℝ) (m : ℕ) (hm : m ≤ order) :
    (delayFilter d order A).2.getD m 0 =
      sinc (m + (delayFilter d order A).1 - d) * window order A (m + (delayFilter d order A).1 - d) := by
  set frac := d - (⌊d⌋₊ : ℝ) with hfrac
  have ht : (m : ℝ) + ((delayFilter d order A).1 : ℝ) - d = m + (mOpt order frac : ℝ) - frac := by
    simp only [delayFilter]
    push_cast
    rw [hfrac]
    ring
  rw [ht, List.getD_eq_getElem _ _ (by rw [delayFilter_length]; omega)]
  simp only [delayFilter, kaiser, List.getElem_zipWith, List.getElem_map, List.getElem_range]
  rw [← hfrac]
  congr 1
  rw [window_eq]
  have hL : ((if order % 2 = 1 then (m : ℝ) - frac + 0.5
      else if frac > 0.5 then (m : ℝ) - frac + 1 else (m : ℝ) - frac) - (order : ℝ) / 2) =
      m + (mOpt order frac : ℝ) - frac := by
    unfold mOpt
    by_cases ho : order % 2 = 1
    · obtain ⟨p, hp⟩ : ∃ p, order = 2 * p + 1 := ⟨order / 2, by omega⟩
      rw [if_pos ho, if_pos ho, show (order - 1) / 2 = p by omega, hp]
      push_cast
      ring
    · obtain ⟨p, hp⟩ : ∃ p, order = 2 * p := ⟨order / 2, by omega⟩
      rw [if_neg ho, if_neg ho, show order / 2 = p by omega, hp]
      by_cases hf : frac > 1 / 2
      · rw [if_pos (by norm_num; linarith), if_pos hf]
        push_cast
        ring
      · rw [if_neg (by norm_num; linarith), if_neg hf]
        push_cast
        ring
  rw [hL]

theorem kernel_support (d : ℝ) (hd : 0 ≤ d) (order : ℕ) (A : ℝ) (m : ℤ) :
    kernel order A (m + (delayFilter d order A).1 - d) =
      if 0 ≤ m ∧ m ≤ order then
        sinc (m + (delayFilter d order A).1 - d) * window order A (m + (delayFilter d order A).1 - d)
      else 0 := by
  obtain ⟨hf0, hf1⟩ := frac_bounds d hd
  set frac := d - (⌊d⌋₊ : ℝ) with hfrac
  have ht : (m : ℝ) + ((delayFilter d order A).1 : ℝ) - d = m + (mOpt order frac : ℝ) - frac := by
    simp only [delayFilter]
    push_cast
    rw [hfrac]
    ring
  rw [ht, kernel_eq]
  by_cases ho : order % 2 = 1
  · obtain ⟨p, hp⟩ : ∃ p, order = 2 * p + 1 := ⟨order / 2, by omega⟩
    have hM : mOpt order frac = -(p : ℤ) := by
      unfold mOpt
      rw [if_pos ho, show (order - 1) / 2 = p by omega]
    have hoR : (order : ℝ) = 2 * p + 1 := by rw [hp]; push_cast; ring
    rw [hM]
    by_cases hfz : frac = 0
    · -- all taps are at integers
      have hsinc : sinc ((m : ℝ) + ((-(p : ℤ) : ℤ) : ℝ) - frac) = if m = p then 1 else 0 := by
        rw [hfz, sub_zero, ← Int.cast_add, sinc_int]
        congr 1
        rw [eq_iff_iff]
        constructor <;> intro h <;> linarith
      rw [hsinc]
      by_cases hmp : m = p
      · rw [if_pos hmp, if_pos, if_pos]
        · omega
        · rw [hmp, hfz, hoR]
          push_cast
          have : (0 : ℝ) ≤ p := Nat.cast_nonneg _
          constructor <;> linarith
      · rw [if_neg hmp, zero_mul, ite_self, ite_self]
    · have hf0' : 0 < frac := lt_of_le_of_ne hf0 (Ne.symm hfz)
      refine if_congr ?_ rfl rfl
      rw [hoR, hp]
      push_cast
      constructor
      · rintro ⟨h1, h2⟩
        have h3 : (-1 : ℝ) < m := by linarith
        have h4 : (m : ℝ) < 2 * p + 2 := by linarith
        have h3' : (-1 : ℤ) < m := by exact_mod_cast h3
        have h4' : m < 2 * p + 2 := by exact_mod_cast h4
        omega
      · rintro ⟨h1, h2⟩
        have h3 : (0 : ℝ) ≤ m := by exact_mod_cast h1
        have h4 : (m : ℝ) ≤ 2 * p + 1 := by exact_mod_cast h2
        constructor <;> linarith
  · obtain ⟨p, hp⟩ : ∃ p, order = 2 * p := ⟨order / 2, by omega⟩
    have hoR : (order : ℝ) = 2 * p := by rw [hp]; push_cast; ring
    refine if_congr ?_ rfl rfl
    unfold mOpt
    rw [if_neg ho, show order / 2 = p by omega, hoR, hp]
    by_cases hh : frac > 1 / 2
    · rw [if_pos hh]
      push_cast
      constructor
      · rintro ⟨h1, h2⟩
        have h3 : (-1 : ℝ) < m := by linarith
        have h4 : (m : ℝ) < 2 * p + 1 := by linarith
        have h3' : (-1 : ℤ) < m := by exact_mod_cast h3
        have h4' : m < 2 * p + 1 := by exact_mod_cast h4
        omega
      · rintro ⟨h1, h2⟩
        have h3 : (0 : ℝ) ≤ m := by exact_mod_cast h1
        have h4 : (m : ℝ) ≤ 2 * p := by exact_mod_cast h2
        constructor <;> linarith
    · rw [if_neg hh]
      push_cast
      have hh' : frac ≤ 1 / 2 := not_lt.1 hh
      constructor
      · rintro ⟨h1, h2⟩
        have h3 : (-1 : ℝ) < m := by linarith
        have h4 : (m : ℝ) < 2 * p + 1 := by linarith
        have h3' : (-1 : ℤ) < m := by exact_mod_cast h3
        have h4' : m < 2 * p + 1 := by exact_mod_cast h4
        omega
      · rintro ⟨h1, h2⟩
        have h3 : (0 : ℝ) ≤ m := by exact_mod_cast h1
        have h4 : (m : ℝ) ≤ 2 * p := by exact_mod_cast h2
        constructor <;> linarith

/-- The additional samples behind the signal. -/
noncomputable def extra (d : ℝ) (order : ℕ) : ℕ :=
  if order % 2 = 1 then ⌊d⌋₊ + (order + 1) / 2
  else ⌊d⌋₊ + (if d - (⌊d⌋₊ : ℝ) > 1 / 2 then 1 else 0) + order / 2

theorem delayFilter_int (d : ℝ) (order : ℕ) (A : ℝ) :
    (delayFilter d order A).1 + order = extra d order := by
  simp only [delayFilter, extra, mOpt]
  split_ifs <;> push_cast <;> omega

/-- One entry of the delayed column, for every delay. -/
theorem delayed_column (x : List ℝ) (d : ℝ) (hd : 0 ≤ d) (order : ℕ) (A : ℝ) (i : ℕ)
    (hx : x ≠ []) (hi : i < x.length + extra d order) :
    (padTrim (fullConv x (delayFilter d order A).2) (x.length + extra d order) false).getD i 0 =
      ∑ k ∈ range x.length, x.getD k 0 * kernel order A ((i : ℝ) - k - d) := by
  have hx0 : 0 < x.length := List.length_pos_of_ne_nil hx
  have hint := delayFilter_int d order A
  have hlen : (fullConv x (delayFilter d order A).2).length = x.length + order := by
    simp [fullConv, delayFilter_length]
  rw [padTrim_start _ _ _ hi, hlen]
  set D := (delayFilter d order A).1 with hD
  have hker : ∀ k : ℕ, kernel order A ((i : ℝ) - k - d) =
      if 0 ≤ (i : ℤ) - k - D ∧ (i : ℤ) - k - D ≤ order then
        (delayFilter d order A).2.getD ((i : ℤ) - k - D).toNat 0 else 0 := by
    intro k
    have h1 : (i : ℝ) - k - d = (((i : ℤ) - k - D : ℤ) : ℝ) + D - d := by
      push_cast
      ring
    rw [h1, hD, kernel_support d hd order A, ← hD]
    refine if_ctx_congr Iff.rfl (fun h => ?_) fun _ => rfl
    rw [delayFilter_getD d order A _ (by omega), ← hD]
    have h2 : ((((i : ℤ) - k - D).toNat : ℕ) : ℝ) = (((i : ℤ) - k - D : ℤ) : ℝ) := by
      have : ((((i : ℤ) - k - D).toNat : ℕ) : ℤ) = (i : ℤ) - k - D := Int.toNat_of_nonneg h.1
      exact_mod_cast congrArg (Int.cast (R := ℝ)) this
    rw [h2]
  split_ifs with h
  · unfold fullConv
    rw [delayFilter_length, LFilter.getD_map_range, if_pos (by omega)]
    refine sum_congr rfl fun k hk => ?_
    have hk' := mem_range.1 hk
    rw [hker k]
    congr 1
    by_cases hkn : k ≤ i + (x.length + order) - (x.length + extra d order)
    · rw [if_pos hkn]
      by_cases hm : 0 ≤ (i : ℤ) - k - D ∧ (i : ℤ) - k - D ≤ order
      · rw [if_pos hm]
        congr 1
        omega
      · rw [if_neg hm, List.getD_eq_default _ _ (by rw [delayFilter_length]; omega)]
    · rw [if_neg hkn, if_neg (by omega)]
  · symm
    refine sum_eq_zero fun k hk => ?_
    rw [hker k, if_neg (by omega), mul_zero]

/-! ### The function -/

/-- The samples of a delayed signal, for the channels `sel`. -/
noncomputable def ideal (s : State ℝ) (d : ℝ) (order : ℕ) (A : ℝ) (sel : Prop) [Decidable sel]
    (i c : ℕ) : ℝ :=
  if sel then ∑ k ∈ range s.re.rows, s.sample k c * kernel order A ((i : ℝ) - k - d)
  else s.sample i c

open Classical in
/-- The array before it is stored. -/
theorem fractionalDelay_eq (s : State ℝ) (fs : ℕ) (delay : ℝ) (hdelay : 0 < delay)
    (channels : Option (List ℕ)) (keep : Bool) (order : ℕ) (A : ℝ) (hrows : 1 ≤ s.re.rows)
    (hchs : ∀ chs, channels = some chs → (∀ c ∈ chs, c < s.re.cols) ∧ chs.Nodup)
    (hkeep : keep = true → delay * fs < s.re.rows) :
    ∃ td : ℕ → List ℝ, fractionalDelay s fs delay channels keep order A =
        copyWith s (ofCols (if keep then s.re.rows else s.re.rows + extra (delay * fs) order) s.re.cols td) ∧
      ∀ c < s.re.cols, ∀ i < s.re.rows + extra (delay * fs) order, (td c).getD i 0 =
        ideal s (delay * fs) order A (∀ chs, channels = some chs → c ∈ chs) i c := by
  set d := delay * fs with hd'
  have hd : 0 ≤ d := by positivity
  set chs := channels.getD (List.range s.re.cols) with hchsdef
  have hok : (∀ c ∈ chs, c < s.re.cols) ∧ chs.Nodup := by
    cases hch : channels with
    | none =>
      rw [hchsdef, hch]
      exact ⟨fun c hc => List.mem_range.mp hc, List.nodup_range⟩
    | some l => rw [hchsdef, hch]; exact hchs l hch
  set h := (delayFilter d order A).2 with hh
  have hlen : h.length = order + 1 := delayFilter_length d order A
  have hint := delayFilter_int d order A
  set n1 := s.re.rows + h.length - 1 with hn1
  set n2 := ((delayFilter d order A).1 + n1).toNat with hn2
  have hn2' : n2 = s.re.rows + extra d order := by omega
  set chsNot := chs.filter (fun c => ¬ c < s.re.cols) with hnotdef
  have hnot : chsNot = [] := by
    rw [hnotdef, List.filter_eq_nil_iff]
    intro c hc
    simp [hok.1 c hc]
  set td := fun c => padTrim (colOf s.re c) n1 true with htd
  set td1 := writeCols td chs fun k => fullConv (colOf s.re (chs.getD k 0)) h with htd1
  set notDelayed := fun k => padTrim (td1 (chsNot.getD k 0)) n2 true
  set delayed := fun k => padTrim (td1 (chs.getD k 0)) n2 false
  set td2 := fun c => padTrim (td1 c) n2 true
  set td3 := writeCols (writeCols td2 chsNot notDelayed) chs delayed with htd3
  refine ⟨td3, ?_, ?_⟩
  · unfold fractionalDelay
    rw [if_neg (not_lt.2 hdelay.le), if_neg hdelay.ne']
    dsimp only
    rw [← hd', if_neg (fun hk => absurd hk.2 (not_le.2 (hkeep hk.1))), if_pos hok, ← hn2']
  · intro c hc i hi
    unfold ideal
    have h2 : c ∈ chs ↔ ∀ l, channels = some l → c ∈ l := by
      cases hch : channels with
      | none => rw [hchsdef, hch]; simp [hc]
      | some l => rw [hchsdef, hch]; simp
    have hne : colOf s.re c ≠ [] := by
      intro h0
      have := congrArg List.length h0
      rw [colOf_length] at this
      simp at this
      omega
    by_cases hmem : c ∈ chs
    · rw [if_pos (h2.1 hmem)]
      obtain ⟨k, hk, hck⟩ := List.getElem_of_mem hmem
      have hck' : chs.getD k 0 = c := by rw [List.getD_eq_getElem _ _ hk, hck]
      have h1 : td3 c = padTrim (fullConv (colOf s.re c) h) n2 false := by
        rw [htd3, ← hck', writeCols_mem _ _ _ hok.2 _ hk]
        show padTrim (td1 (chs.getD k 0)) n2 false = _
        rw [htd1, writeCols_mem _ _ _ hok.2 _ hk]
      have h3 := delayed_column (colOf s.re c) d hd order A i hne (by rw [colOf_length]; exact hi)
      rw [colOf_length, ← hn2'] at h3
      rw [h1, h3]
      refine sum_congr rfl fun k hk => ?_
      rw [colOf_getD]
      simp [State.sample, mem_range.1 hk, hc]
    · rw [if_neg (fun h => hmem (h2.2 h))]
      have h1 : td3 c = padTrim (padTrim (colOf s.re c) n1 true) n2 true := by
        rw [htd3, writeCols_not_mem _ _ _ _ hmem, hnot]
        show padTrim (td1 c) n2 true = _
        rw [htd1, writeCols_not_mem _ _ _ _ hmem]
      rw [h1, padTrim_end _ _ _ (by omega)]
      by_cases hi1 : i < n1
      · rw [padTrim_end _ _ _ hi1, colOf_getD]
        simp [State.sample, hc]
      · rw [List.getD_eq_default _ _ (by rw [padTrim_length]; omega)]
        simp [State.sample]
        intro h4
        omega

open Classical in
/-- Every sample of a selected channel is the interpolation of the channel at the time before the
delay, with the kernel of the given order; the other channels keep their samples. The scale is 1 if
the amplitude is not constrained, otherwise it is smaller than 1 only if it brings the largest
amplitude to 1. -/
theorem C77_fractional_delay (s : State ℝ) (hs : Valid s) (hcols : 1 ≤ s.re.cols)
    (hrows2 : 2 ≤ s.re.rows) (fs : ℕ) (delay : ℝ) (hdelay : 0 ≤ delay) (channels : Option (List ℕ)) (keep : Bool) (order : ℕ) (horder : 1 ≤ order)
    (A : ℝ)
    (hchs : ∀ chs, channels = some chs → (∀ c ∈ chs, c < s.re.cols) ∧ chs.Nodup)
    (hkeep : keep = true → delay * fs < s.re.rows) :
    ∃ s' g, fractionalDelay s fs delay channels keep order A = .ok s' ∧ s'.re.cols = s.re.cols ∧
      s'.re.rows = (if keep = true ∨ delay = 0 then s.re.rows
        else s.re.rows + extra (delay * fs) order) ∧
      (∀ c < s.re.cols, ∀ i < s'.re.rows, s'.sample i c = g *
        ideal s (delay * fs) order A (∀ chs, channels = some chs → c ∈ chs) i c) ∧
      (g = 1 ∨ (s.constrain = true ∧ 0 < g ∧ g < 1 ∧
        ∃ c < s.re.cols, ∃ i < s'.re.rows, |s'.sample i c| = 1)) := by
  have hrows : s.re.cols ≤ s.re.rows := hs.shape
  rcases hdelay.eq_or_lt with h0 | h0
  · refine ⟨s, 1, ?_, rfl, ?_, fun c hc i hi => ?_, .inl rfl⟩
    · unfold fractionalDelay
      rw [if_neg (not_lt.2 hdelay), if_pos h0.symm]
    · rw [if_pos (.inr h0.symm)]
    · unfold ideal
      rw [one_mul]
      split_ifs with hsel
      · rw [← h0, zero_mul, sum_eq_single i]
        · have := C77_kernel order A 0
          rw [if_pos rfl, Int.cast_zero] at this
          rw [sub_self, sub_zero, this, mul_one]
        · intro k _ hk
          have := C77_kernel order A ((i : ℤ) - k)
          rw [if_neg (by omega)] at this
          push_cast at this
          rw [sub_zero, this, mul_zero]
        · intro hi'
          exact absurd (mem_range.2 hi) hi'
      · rfl
  · obtain ⟨td, htd, hval⟩ := fractionalDelay_eq s fs delay h0 channels keep order A (by omega) hchs hkeep
    set n := (if keep then s.re.rows else s.re.rows + extra (delay * fs) order) with hn
    have hex : 1 ≤ extra (delay * fs) order := by
      unfold extra
      split_ifs <;> omega
    have hn1 : n ≤ s.re.rows + extra (delay * fs) order := by rw [hn]; split_ifs <;> omega
    have hn2 : s.re.cols ≤ n := by rw [hn]; split_ifs <;> omega
    have h11 : ¬ (n = 1 ∧ s.re.cols = 1) := by
      rw [hn]
      split_ifs <;> omega
    obtain ⟨s', h1, -, ⟨h3, h4⟩, h5, h6, -, -⟩ := setData_scaled
      (⟨⟨0, 0, fun _ _ => 0⟩, none, s.constrain, 1⟩ : State ℝ) (ofCols n s.re.cols td) hn2 h11 hcols
    refine ⟨s', s'.scale, ?_, h4, ?_, fun c hc i hi => ?_, ?_⟩
    · rw [htd]
      exact h1
    · rw [h3, hn]
      show (if keep = true then _ else _) = _
      by_cases hk : keep = true
      · rw [if_pos hk, if_pos (.inl hk)]
      · rw [if_neg hk, if_neg (by rintro (h | h); exacts [hk h, h0.ne' h])]
    · rw [h3] at hi
      have hi' : i < n := hi
      rw [h6 i hi' c hc, ← hval c hc i (by omega)]
      rfl
    · dsimp only at h5
      split_ifs at h5 with hp
      · refine .inr ⟨hp.1, ?_, ?_, ?_⟩
        · rw [h5]
          have := hp.2
          positivity
        · rw [h5, div_lt_one (by linarith [hp.2])]
          exact hp.2
        · rcases (C14_peak_is_largest (ofCols n s.re.cols td)).2.2 with h | ⟨r, hr, c, hc, h | ⟨f, hf, h⟩⟩
          · have := hp.2
            rw [h] at this
            linarith
          · refine ⟨c, hc, r, by rw [h3]; exact hr, ?_⟩
            rw [h6 r hr c hc, abs_mul, ← h, h5, abs_of_pos (by have := hp.2; positivity)]
            have := hp.2
            field_simp
          · exact absurd hf (by simp [ofCols])
      · exact .inl h5

/-- A whole number of samples shifts the channels. -/
theorem ideal_int (s : State ℝ) (n order : ℕ) (A : ℝ) (sel : Prop) [Decidable sel] (i c : ℕ) :
    ideal s n order A sel i c =
      if sel then delayedBy n (fun r => s.sample r c) i else s.sample i c := by
  unfold ideal
  refine if_congr Iff.rfl ?_ rfl
  have hker : ∀ k : ℕ, kernel order A ((i : ℝ) - k - n) = if i = k + n then 1 else 0 := by
    intro k
    have := C77_kernel order A ((i : ℤ) - k - n)
    push_cast at this
    rw [this]
    refine if_congr ?_ rfl rfl
    constructor <;> intro h <;> omega
  unfold delayedBy
  split_ifs with h
  · refine sum_eq_zero fun k _ => ?_
    rw [hker, if_neg (by omega), mul_zero]
  · by_cases hr : i - n < s.re.rows
    · rw [sum_eq_single (i - n)]
      · rw [hker, if_pos (by omega), mul_one]
      · intro k _ hk
        rw [hker, if_neg (by omega), mul_zero]
      · intro hk
        exact absurd (mem_range.2 hr) hk
    · have h0 : s.sample (i - n) c = 0 := by
        unfold State.sample
        rw [if_neg (fun h => hr h.1)]
      refine Eq.trans ?_ h0.symm
      refine sum_eq_zero fun k hk => ?_
      have := mem_range.1 hk
      rw [hker, if_neg (by omega), mul_zero]

open Classical in
/-- A delay of a whole number of samples is exact, for every order and window: `n` zeros, the samples,
zeros. The other channels are padded. -/
theorem C77_whole_samples (s : State ℝ) (hs : Valid s) (hcols : 1 ≤ s.re.cols)
    (hrows2 : 2 ≤ s.re.rows) (fs : ℕ) (delay : ℝ) (hdelay : 0 ≤ delay) (n : ℕ) (hn : delay * fs = n)
    (channels : Option (List ℕ)) (keep : Bool) (order : ℕ) (horder : 1 ≤ order) (A : ℝ)
    (hchs : ∀ chs, channels = some chs → (∀ c ∈ chs, c < s.re.cols) ∧ chs.Nodup)
    (hkeep : keep = true → n < s.re.rows) :
    ∃ s', fractionalDelay s fs delay channels keep order A = .ok s' ∧ s'.re.cols = s.re.cols ∧
      s'.re.rows = (if keep = true ∨ delay = 0 then s.re.rows
        else s.re.rows + n + (order + 1) / 2) ∧
      ∀ c < s.re.cols, ∀ i < s'.re.rows, s'.sample i c =
        if (∀ chs, channels = some chs → c ∈ chs) then delayedBy n (fun r => s.sample r c) i
        else s.sample i c := by
  obtain ⟨s', g, h1, h2, h3, h4, h5⟩ := C77_fractional_delay s hs hcols hrows2 fs delay hdelay channels
    keep order horder A hchs (fun hk => by rw [hn]; exact_mod_cast hkeep hk)
  have hg : g = 1 := by
    rcases h5 with h5 | ⟨hcon, hg0, hg1, c, hc, i, hi, habs⟩
    · exact h5
    · exfalso
      rw [h4 c hc i hi, hn, ideal_int, abs_mul, abs_of_pos hg0] at habs
      have hle : |if (∀ chs, channels = some chs → c ∈ chs) then delayedBy n (fun r => s.sample r c) i
          else s.sample i c| ≤ 1 := by
        unfold delayedBy
        split_ifs
        · simp
        · exact sample_bounded hs hcon _ _
        · exact sample_bounded hs hcon _ _
      nlinarith
  refine ⟨s', h1, h2, ?_, fun c hc i hi => ?_⟩
  · rw [h3, hn]
    refine if_congr Iff.rfl rfl ?_
    unfold extra
    rw [Nat.floor_natCast, sub_self, if_neg (by norm_num : ¬ ((0 : ℝ) > 1 / 2))]
    split_ifs <;> omega
  · rw [h4 c hc i hi, hg, one_mul, hn, ideal_int]

/-- Negative delays, missing or repeated channels, and delays that are not shorter than the signal if
its length is kept, are rejected. -/
theorem C77_rejected (s : State ℝ) (fs : ℕ) (delay : ℝ) (chs : List ℕ) (keep : Bool) (order : ℕ)
    (A : ℝ) (hd : delay ≠ 0)
    (h : delay < 0 ∨ (∃ c ∈ chs, s.re.cols ≤ c) ∨ ¬ chs.Nodup ∨
      (keep = true ∧ (s.re.rows : ℝ) ≤ delay * fs)) :
    fractionalDelay s fs delay (some chs) keep order A = .error .assertionError := by
  unfold fractionalDelay
  by_cases h0 : delay < 0
  · rw [if_pos h0]
  · rw [if_neg h0, if_neg hd]
    dsimp only
    by_cases hk : keep = true ∧ (s.re.rows : ℝ) ≤ delay * fs
    · rw [if_pos hk]
    · rw [if_neg hk, if_neg]
      rintro ⟨h1, h2⟩
      simp only [Option.getD_some] at h1 h2
      rcases h with h | ⟨c, hc, hle⟩ | h | h
      · exact h0 h
      · have := h1 c hc
        omega
      · exact h h2
      · exact hk h

/-- The imaginary part of a complex signal is lost by every delay except for 0. -/
theorem C77_imaginary_lost (s s' : State ℝ) (fs : ℕ) (delay : ℝ) (hd : delay ≠ 0)
    (channels : Option (List ℕ)) (keep : Bool) (order : ℕ) (A : ℝ)
    (h : fractionalDelay s fs delay channels keep order A = .ok s') : s'.im = none := by
  unfold fractionalDelay at h
  dsimp only at h
  split_ifs at h <;> exact copyWith_im_none s s' _ rfl h

/-- A signal with two channels. -/
noncomputable def example2 : State ℝ := ⟨⟨3, 2, fun r c => (r + 3 * c) / 6⟩, none, true, 1⟩

theorem example2_valid : Valid example2 := by
  refine ⟨by simp [example2], by simp [example2], fun _ => ?_⟩
  intro r hr c hc
  simp only [example2] at hr hc ⊢
  interval_cases r <;> interval_cases c <;> norm_num [abs_of_nonneg]

/-- 3 ms at 2000 Hz are 6 samples; the default order and window. -/
example : ∃ s', fractionalDelay example2 2000 0.003 (some [1]) false 30 60 = .ok s' ∧
    s'.re.rows = 24 ∧ s'.sample 6 1 = 1 / 2 ∧ s'.sample 2 0 = 1 / 3 ∧ s'.sample 5 1 = 0 := by
  obtain ⟨s', h1, -, h3, h4⟩ := C77_whole_samples example2 example2_valid (by simp [example2])
    (by simp [example2]) 2000 0.003 (by norm_num) 6 (by norm_num) (some [1]) false 30 (by norm_num) 60
    (by simp [example2]) (by simp)
  have hr : s'.re.rows = 24 := by
    rw [h3, if_neg (by norm_num)]
    simp [example2]
  refine ⟨s', h1, hr, ?_, ?_, ?_⟩
  · rw [h4 1 (by simp [example2]) 6 (by omega)]
    norm_num [delayedBy, State.sample, example2]
  · rw [h4 0 (by simp [example2]) 2 (by omega)]
    norm_num [delayedBy, State.sample, example2]
  · rw [h4 1 (by simp [example2]) 5 (by omega)]
    norm_num [delayedBy, State.sample, example2]

end Verif.FractionalDelay
