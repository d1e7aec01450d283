import Verif.Model.Dither
import Verif.Props.C36
import Mathlib.Order.Interval.Finset.Defs
import Mathlib.Data.Int.Interval
import Mathlib.Tactic.Linarith
import Mathlib.Tactic.NormNum
import Mathlib.Tactic.Positivity

/-!
# C120: dither
-/

namespace Verif.Dither

open SignalData Bank

/-! ### Specification -/

/-- All draws are in the interval that `np.random.uniform(-epsilon / 2, epsilon / 2)` returns. -/
def Drawn (epsilon : ℝ) (u : ℕ → ℕ → ℝ) : Prop := ∀ r c, -(epsilon / 2) ≤ u r c ∧ u r c ≤ epsilon / 2

/-- The finite numbers of 16-bit floating point. -/
def Half (x : ℝ) : Prop := ∃ k e : ℤ, |k| < 2 ^ 11 ∧ -24 ≤ e ∧ e ≤ 5 ∧ x = k * (2 : ℝ) ^ e

/-- Rounding to the closest number of 16-bit floating point, ties in any way. -/
def Rounds (half : ℝ → ℝ) : Prop :=
  ∀ x, |x| ≤ 65504 → Half (half x) ∧ ∀ q, Half q → |half x - x| ≤ |q - x|

/-! ### Signals -/

theorem stored (s : State ℝ) (hs : Shaped s) (hcon : s.constrain = false) (f : ℕ → ℕ → ℝ) :
    ∃ t, copyWith s ⟨s.re.rows, s.re.cols, f, none⟩ = .ok t ∧ t.HasShape s.re.rows s.re.cols ∧
      t.im = none ∧ ∀ r < s.re.rows, ∀ c < s.re.cols, t.sample r c = f r c := by
  obtain ⟨h1, h2, h3⟩ := hs
  refine ⟨_, copyWith_ok s _ ?_ ?_ (by rw [hcon]; simp), ⟨rfl, rfl⟩, rfl, fun r hr c hc => ?_⟩
  · dsimp only; omega
  · dsimp only; omega
  · simp [State.sample, Input.reMat, hr, hc]

/-- Noise of the requested distribution is added: no sample changes by more than half the quantization
step, or by more than one for the triangular distribution. -/
theorem C120_bounded_partial (half : ℝ → ℝ) (epsilon : ℝ) (u v : ℕ → ℕ → ℝ) (hu : Drawn epsilon u)
    (hv : Drawn epsilon v) (s : State ℝ) (hs : Shaped s) (hcon : s.constrain = false)
    (triangular : Bool) :
    ∃ t, dither half u v s triangular none false = .ok t ∧ t.HasShape s.re.rows s.re.cols ∧
      ∀ r < s.re.rows, ∀ c < s.re.cols,
        |t.sample r c - s.sample r c| ≤ if triangular then epsilon else epsilon / 2 := by
  obtain ⟨t, ht, hsh, -, hval⟩ := stored s hs hcon fun r c =>
    s.re.val r c + noise triangular u v r c
  refine ⟨t, ht, hsh, fun r hr c hc => ?_⟩
  rw [hval r hr c hc, State.sample, if_pos ⟨hr, hc⟩, add_sub_cancel_left, abs_le]
  obtain ⟨h1, h2⟩ := hu r c
  obtain ⟨h3, h4⟩ := hv r c
  unfold noise
  cases triangular <;> simp <;> constructor <;> linarith

/-- The difference is the draw itself, or for the triangular distribution the sum of the two draws. -/
theorem C120_noise_partial (half : ℝ → ℝ) (u v : ℕ → ℕ → ℝ) (s : State ℝ) (hs : Shaped s)
    (hcon : s.constrain = false) (triangular : Bool) :
    ∃ t, dither half u v s triangular none false = .ok t ∧
      ∀ r < s.re.rows, ∀ c < s.re.cols,
        t.sample r c - s.sample r c = if triangular then u r c + v r c else u r c := by
  obtain ⟨t, ht, -, -, hval⟩ := stored s hs hcon fun r c =>
    s.re.val r c + noise triangular u v r c
  refine ⟨t, ht, fun r hr c hc => ?_⟩
  rw [hval r hr c hc, State.sample, if_pos ⟨hr, hc⟩, add_sub_cancel_left]
  unfold noise
  cases triangular <;> simp

/-- With noise shaping the difference is the noise after all filters of the bank. -/
theorem C120_shaped (half : ℝ → ℝ) (u v : ℕ → ℕ → ℝ) (s : State ℝ) (hs : Shaped s)
    (hcon : s.constrain = false) (triangular : Bool) (Fs : List (Filt ℝ))
    (hF : ∀ F ∈ Fs, F.Proper) :
    ∃ t, dither half u v s triangular (some Fs) false = .ok t ∧ t.HasShape s.re.rows s.re.cols ∧
      ∀ c < s.re.cols, ∀ r < s.re.rows, t.sample r c - s.sample r c =
        PowerSeries.coeff r ((Fs.map Filt.H).prod *
          PowerSeries.mk fun n => if n < s.re.rows then
            (if triangular then u n c + v n c else u n c) else 0) := by
  have hno : ∀ n c, (if triangular = true then u n c + v n c else u n c) = noise triangular u v n c := by
    intro n c
    unfold noise
    cases triangular <;> simp
  simp only [hno]
  obtain ⟨h1, h2, h3⟩ := id hs
  set n : State ℝ := ⟨⟨s.re.rows, s.re.cols, noise triangular u v⟩, none, false, 1⟩ with hn
  have hc : construct ⟨s.re.rows, s.re.cols, noise triangular u v, none⟩ false = .ok n := by
    refine setData_ok _ _ ?_ ?_ (by simp)
    · dsimp only; omega
    · dsimp only; omega
  obtain ⟨w, hw, ⟨hw1, hw2⟩, hwv⟩ := C36_sequential Fs hF n ⟨h1, h2, h3⟩ rfl
  obtain ⟨t, ht, hsh, -, hval⟩ := stored s hs hcon fun r c => s.re.val r c + w.re.val r c
  refine ⟨t, ?_, hsh, fun c hc r hr => ?_⟩
  · unfold dither shaped
    simp only [hc, hw]
    exact ht
  · rw [hval r hr c hc, State.sample, if_pos ⟨hr, hc⟩, add_sub_cancel_left]
    have := hwv c hc r hr
    unfold chanZ at this
    rw [zseries_coeff, LFilter.getD_map_range, hw1, if_pos hr, State.sample, hw1, hw2, if_pos ⟨hr, hc⟩] at this
    rw [this]
    congr 2
    ext k
    rw [zseries_coeff, LFilter.getD_map_range, PowerSeries.coeff_mk]
    simp only [hn, State.sample, hc, and_true]
    split_ifs <;> rfl

/-- Truncated samples are numbers of 16-bit floating point. -/
theorem C120_truncated_partial (half : ℝ → ℝ) (hh : Rounds half) (epsilon : ℝ) (u v : ℕ → ℕ → ℝ)
    (hu : Drawn epsilon u) (hv : Drawn epsilon v) (s : State ℝ) (hs : Shaped s)
    (hcon : s.constrain = false) (triangular : Bool)
    (hb : ∀ r < s.re.rows, ∀ c < s.re.cols, |s.sample r c| + epsilon ≤ 65504) :
    ∃ t, dither half u v s triangular none true = .ok t ∧ t.HasShape s.re.rows s.re.cols ∧
      ∀ r < s.re.rows, ∀ c < s.re.cols, Half (t.sample r c) ∧
        ∀ q, Half q → |t.sample r c - s.sample r c| ≤ |q - s.sample r c| + 2 * epsilon := by
  obtain ⟨t, ht, hsh, -, hval⟩ := stored s hs hcon fun r c =>
    half (s.re.val r c + noise triangular u v r c)
  refine ⟨t, ht, hsh, fun r hr c hc => ?_⟩
  have hsm : s.sample r c = s.re.val r c := by rw [State.sample, if_pos ⟨hr, hc⟩]
  have hnoise : |noise triangular u v r c| ≤ epsilon := by
    rw [abs_le]
    obtain ⟨h1, h2⟩ := hu r c
    obtain ⟨h3, h4⟩ := hv r c
    unfold noise
    cases triangular <;> simp <;> constructor <;> linarith
  have hb' := hb r hr c hc
  rw [hsm] at hb' ⊢
  have h5 := hh (s.re.val r c + noise triangular u v r c)
    ((abs_add_le _ _).trans (by linarith))
  rw [hval r hr c hc]
  refine ⟨h5.1, fun q hq => ?_⟩
  have h6 := h5.2 q hq
  have h7 : |half (s.re.val r c + noise triangular u v r c) - s.re.val r c| ≤
      |half (s.re.val r c + noise triangular u v r c) -
        (s.re.val r c + noise triangular u v r c)| + |noise triangular u v r c| := by
    refine le_trans (le_of_eq ?_) (abs_add_le _ _)
    congr 1
    ring
  have h8 : |q - (s.re.val r c + noise triangular u v r c)| ≤
      |q - s.re.val r c| + |noise triangular u v r c| := by
    rw [show q - (s.re.val r c + noise triangular u v r c) =
      (q - s.re.val r c) - noise triangular u v r c by ring]
    exact abs_sub _ _
  linarith

/-- Numbers of 16-bit floating point from 2^-11 on are at least 2^-22 apart from all others. -/
theorem half_gap (x y : ℝ) (hx : Half x) (hy : Half y) (h : (2 : ℝ) ^ (-11 : ℤ) ≤ |x|)
    (hxy : |y - x| < (2 : ℝ) ^ (-22 : ℤ)) : y = x := by
  obtain ⟨k, e, hk, he, -, rfl⟩ := hx
  obtain ⟨m, f, hm, hf, -, rfl⟩ := hy
  replace hk := hk.le
  replace hm := hm.le
  have key : ∀ (k e : ℤ), |k| ≤ 2 ^ 11 → (2 : ℝ) ^ (-12 : ℤ) < |k * (2 : ℝ) ^ e| → -22 ≤ e := by
    intro k e hk h
    by_contra hc
    have h1 : (2 : ℝ) ^ e ≤ (2 : ℝ) ^ (-23 : ℤ) := zpow_le_zpow_right₀ (by norm_num) (by omega)
    rw [abs_mul, abs_of_pos (zpow_pos (by norm_num : (0 : ℝ) < 2) e)] at h
    have h2 : |(k : ℝ)| ≤ 2 ^ 11 := by exact_mod_cast hk
    have h3 : |(k : ℝ)| * (2 : ℝ) ^ e ≤ 2 ^ 11 * (2 : ℝ) ^ (-23 : ℤ) :=
      mul_le_mul h2 h1 (zpow_pos (by norm_num) e).le (by norm_num)
    norm_num at h3 h
    linarith
  have hk' := key k e hk (lt_of_lt_of_le (by norm_num) h)
  have hm' := key m f hm (by
    have h1 : |(k : ℝ) * 2 ^ e| - |(m : ℝ) * 2 ^ f| ≤ |(m : ℝ) * 2 ^ f - k * 2 ^ e| := by
      rw [abs_sub_comm]
      exact abs_sub_abs_le_abs_sub _ _
    generalize |(m : ℝ) * 2 ^ f - k * 2 ^ e| = A at h1 hxy
    generalize |(k : ℝ) * 2 ^ e| = B at h1 h
    generalize |(m : ℝ) * 2 ^ f| = D at h1 ⊢
    norm_num at hxy h ⊢
    linarith)
  obtain ⟨a, ha⟩ : ∃ a : ℤ, (k : ℝ) * 2 ^ e = a * (2 : ℝ) ^ (-22 : ℤ) := by
    refine ⟨k * 2 ^ (e + 22).toNat, ?_⟩
    push_cast
    rw [mul_assoc, ← zpow_natCast, ← zpow_add₀ (by norm_num)]
    congr 2
    omega
  obtain ⟨b, hb⟩ : ∃ b : ℤ, (m : ℝ) * 2 ^ f = b * (2 : ℝ) ^ (-22 : ℤ) := by
    refine ⟨m * 2 ^ (f + 22).toNat, ?_⟩
    push_cast
    rw [mul_assoc, ← zpow_natCast, ← zpow_add₀ (by norm_num)]
    congr 2
    omega
  rw [ha, hb] at hxy ⊢
  rw [← sub_mul, abs_mul, abs_of_pos (zpow_pos (by norm_num : (0 : ℝ) < 2) (-22))] at hxy
  have h1 : |(b : ℝ) - a| < 1 := by
    by_contra hc
    have := mul_le_mul_of_nonneg_right (not_lt.1 hc) (zpow_pos (by norm_num : (0 : ℝ) < 2) (-22)).le
    linarith
  have h2 : |b - a| < 1 := by exact_mod_cast h1
  have : b = a := by
    have := abs_lt.1 h2
    omega
  rw [this]

/-- With the default step (the smallest number of 16-bit floating point, 2^-24), dither does not reach
the truncation: a sample of at least 2^-11 (-66 dBFS) that is a number of 16-bit floating point is
returned unchanged, whatever the noise. -/
theorem C120_default_wrong (half : ℝ → ℝ) (hh : Rounds half) (u v : ℕ → ℕ → ℝ)
    (hu : Drawn (2 ^ (-24 : ℤ)) u) (hv : Drawn (2 ^ (-24 : ℤ)) v) (s : State ℝ) (hs : Shaped s)
    (hcon : s.constrain = false) (triangular : Bool)
    (hb : ∀ r < s.re.rows, ∀ c < s.re.cols, |s.sample r c| ≤ 1) :
    ∃ t, dither half u v s triangular none true = .ok t ∧
      ∀ r < s.re.rows, ∀ c < s.re.cols, Half (s.sample r c) → (2 : ℝ) ^ (-11 : ℤ) ≤ |s.sample r c| →
        t.sample r c = s.sample r c := by
  obtain ⟨t, ht, -, hval⟩ := C120_truncated_partial half hh _ u v hu hv s hs hcon triangular (by
    intro r hr c hc
    have := hb r hr c hc
    norm_num at this ⊢
    linarith)
  refine ⟨t, ht, fun r hr c hc hx hlow => ?_⟩
  obtain ⟨h1, h2⟩ := hval r hr c hc
  have h3 := h2 _ hx
  refine half_gap _ _ hx h1 hlow (lt_of_le_of_lt h3 ?_)
  norm_num

/-- Rounding to the closest number exists. -/
theorem exists_rounds : ∃ half, Rounds half := by
  have hfin : {x | Half x}.Finite := by
    obtain ⟨B, hB⟩ : ∃ B : ℤ, B = 2 ^ 11 := ⟨_, rfl⟩
    refine Set.Finite.subset ((Finset.Icc (-B) B ×ˢ Finset.Icc (-24 : ℤ) 5).image
      fun p => (p.1 : ℝ) * (2 : ℝ) ^ p.2).finite_toSet ?_
    rintro x ⟨k, e, hk, he, he', rfl⟩
    rw [← hB] at hk
    obtain ⟨h1, h2⟩ := abs_lt.1 hk
    exact Finset.mem_coe.2 (Finset.mem_image.2 ⟨(k, e), Finset.mem_product.2
      ⟨Finset.mem_Icc.2 ⟨h1.le, h2.le⟩, Finset.mem_Icc.2 ⟨he, he'⟩⟩, rfl⟩)
  have : ∀ x, ∃ y, Half y ∧ ∀ q, Half q → |y - x| ≤ |q - x| := by
    intro x
    obtain ⟨y, hy, hmin⟩ := Set.exists_min_image {x | Half x} (fun q => |q - x|) hfin
      ⟨0, 0, 0, by norm_num, by norm_num, by norm_num, by norm_num⟩
    exact ⟨y, hy, hmin⟩
  choose half h1 h2 using this
  exact ⟨half, fun x _ => ⟨h1 x, h2 x⟩⟩

/-- The hypotheses are met. -/
example : Half 0.75 ∧ Drawn (2 ^ (-24 : ℤ)) (fun r _ => if r = 1 then 2 ^ (-25 : ℤ) else 0) ∧
    Shaped (⟨⟨3, 1, fun r _ => if r = 0 then 0.75 else -1⟩, none, false, 1⟩ : State ℝ) := by
  refine ⟨⟨3, -2, by norm_num, by norm_num, by norm_num, by norm_num⟩, fun r c => ?_,
    by constructor <;> simp⟩
  dsimp only
  split_ifs <;> constructor <;> norm_num

/-- A signal of constrained amplitude at full scale: it is scaled down after the noise was added, and a
sample changes by more than half the step. -/
theorem C120_full_scale_wrong (half : ℝ → ℝ) (epsilon : ℝ) (h0 : 0 < epsilon) (h2 : epsilon < 2)
    (v : ℕ → ℕ → ℝ) :
    Drawn epsilon (fun _ _ => epsilon / 2) ∧
    ∃ t, dither half (fun _ _ => epsilon / 2) v
        ⟨⟨2, 1, fun r _ => if r = 0 then 1 else -1⟩, none, true, 1⟩ false none false = .ok t ∧
      epsilon / 2 < |t.sample 1 0 - (-1)| := by
  refine ⟨fun _ _ => ⟨by linarith, le_rfl⟩, ?_⟩
  set w : Input ℝ := ⟨2, 1, fun r _ => (if r = 0 then 1 else -1) + epsilon / 2, none⟩ with hw
  obtain ⟨t, ht, -, hsh, hsc, hv, -⟩ := setData_scaled
    (⟨⟨0, 0, fun _ _ => 0⟩, none, true, 1⟩ : State ℝ) w (by simp [hw]) (by simp [hw]) (by simp [hw])
  obtain ⟨p1, -, p2⟩ := C14_peak_is_largest w
  have hp : peak w = 1 + epsilon / 2 := by
    have hle := p1 0 (by simp [hw]) 0 (by simp [hw])
    simp only [hw, if_true] at hle
    rw [abs_of_pos (by linarith)] at hle
    rcases p2 with h | ⟨r, hr, c, hc, h | ⟨f, hf, -⟩⟩
    · rw [hw] at h
      rw [h] at hle
      linarith
    · refine le_antisymm ?_ hle
      rw [h]
      simp only [hw]
      split_ifs
      · rw [abs_of_pos (by linarith)]
      · rw [abs_le]
        constructor <;> linarith
    · simp [hw] at hf
  refine ⟨t, ht, ?_⟩
  rw [hv 1 (by simp [hw]) 0 (by simp [hw]), hsc, if_pos ⟨rfl, by rw [hp]; linarith⟩, hp]
  simp only [hw, one_ne_zero, if_false]
  have hd : 0 < 1 + epsilon / 2 := by linarith
  rw [show 1 / (1 + epsilon / 2) * (-1 + epsilon / 2) - -1 = epsilon / (1 + epsilon / 2) by
    field_simp; ring, abs_of_pos (by positivity), lt_div_iff₀ hd]
  nlinarith

end Verif.Dither
