import Verif.Model.Resample
import Verif.Lemmas.FilterBank
import Verif.Spec.Convolution
import Mathlib.Algebra.Field.Rat
import Mathlib.Algebra.Order.Ring.Rat

/-!
# C23 (continued): recursive filters and the choice of the branch
-/

set_option linter.unusedSectionVars false

namespace Verif.Polyphase

open LFilter

variable {K : Type} [Field K] [LinearOrder K] [IsStrictOrderedRing K]

/-- `y` is the response of the recursive filter `b`, `a` to `x` from rest: as long as `x`, and
`∑ a[m] y[n-m] = ∑ b[m] x[n-m]` at every sample. -/
def Responds (b a x y : List K) : Prop :=
  y.length = x.length ∧ AgreeUpTo x.length (zseries a * zseries y) (zseries b * zseries x)

theorem responds_lfilter (b a x : List K) (ha : a.getD 0 0 ≠ 0) :
    Responds b a x (Bank.lfilter b a x) := by
  refine ⟨Bank.lfilter_length b a x, ?_⟩
  have h := (Bank.lfilter_agree b a x ha).mul_left (zseries a)
  have hne : PowerSeries.constantCoeff (zseries a) ≠ 0 := by
    rw [← PowerSeries.coeff_zero_eq_constantCoeff_apply, zseries_coeff]
    exact ha
  have e : zseries a * (ratio b a * zseries x) = zseries b * zseries x := by
    unfold ratio
    have := PowerSeries.mul_inv_cancel _ hne
    linear_combination (zseries b * zseries x) * this
  rwa [e] at h

/-- The response is unique. -/
theorem Responds.unique {b a x y y' : List K} (ha : a.getD 0 0 ≠ 0) (h : Responds b a x y)
    (h' : Responds b a x y') : y = y' := by
  have h1 := agree_ratio _ b a _ _ ha h.2
  have h2 := agree_ratio _ b a _ _ ha h'.2
  refine ext_getD _ _ (h.1.trans h'.1.symm) fun k hk => ?_
  have := (h1.trans h2.symm) k (by rw [← h.1]; exact hk)
  rwa [zseries_coeff, zseries_coeff] at this

/-- **C23**, recursive filters, downsampling: sample `k` of the result is sample `k D` of the
filtered signal, and there are as many samples as multiples of `D` below the length. -/
theorem C23_iir_downsample (x b a : List K) (D : ℕ) (hD : 0 < D) (ha : a.getD 0 0 ≠ 0) :
    ∃ y, Responds b a x y ∧ (∀ k, k < (downsamplePlain x b a D).length ↔ k * D < x.length) ∧
      ∀ k, k * D < x.length → (downsamplePlain x b a D).getD k 0 = y.getD (k * D) 0 := by
  refine ⟨_, responds_lfilter b a x ha, ?_⟩
  have hl : (downsamplePlain x b a D).length = (x.length + D - 1) / D := by
    simp [downsamplePlain, everyNth, Bank.lfilter_length]
  have hiff : ∀ k, k < (x.length + D - 1) / D ↔ k * D < x.length := by
    intro k
    rw [← Nat.succ_le_iff, Nat.le_div_iff_mul_le hD, Nat.succ_mul]
    omega
  refine ⟨fun k => by rw [hl]; exact hiff k, fun k hk => ?_⟩
  unfold downsamplePlain everyNth
  rw [getD_map_range, Bank.lfilter_length, if_pos ((hiff k).mpr hk)]

/-- **C23**, recursive filters, upsampling: the result is the response to the zero-stuffed
signal, multiplied by the factor. -/
theorem C23_iir_upsample (x b a : List K) (U : ℕ) (ha : a.getD 0 0 ≠ 0) :
    ∃ y, Responds b a (zeroStuffed x U) y ∧ (upsamplePlain x b a U).length = x.length * U ∧
      ∀ k < x.length * U, (upsamplePlain x b a U).getD k 0 = U * y.getD k 0 := by
  have hst : ∀ j, (stuff x U).getD j 0 = (U : K) * (zeroStuffed x U).getD j 0 := by
    intro j
    unfold stuff zeroStuffed
    rw [getD_map_range, getD_map_range]
    by_cases hj : j < x.length * U
    · rw [if_pos hj, if_pos hj]
      by_cases hm : j % U = 0
      · rw [if_pos hm, if_pos (Nat.dvd_of_mod_eq_zero hm)]
        ring
      · rw [if_neg hm, if_neg (fun h => hm (Nat.mod_eq_zero_of_dvd h)), mul_zero]
    · rw [if_neg hj, if_neg hj, mul_zero]
  have hl1 : (stuff x U).length = x.length * U := by simp [stuff]
  have hl2 : (zeroStuffed x U).length = x.length * U := by simp [zeroStuffed]
  have hu := responds_lfilter b a (stuff x U) ha
  have hz := responds_lfilter b a (zeroStuffed x U) ha
  refine ⟨_, hz, by rw [upsamplePlain, Bank.lfilter_length, hl1], fun k hk => ?_⟩
  have h1 := agree_ratio _ b a _ _ ha hu.2 k (by rw [hl1]; exact hk)
  have h2 := agree_ratio _ b a _ _ ha hz.2 k (by rw [hl2]; exact hk)
  have e : zseries (stuff x U) = PowerSeries.C (U : K) * zseries (zeroStuffed x U) := by
    ext j
    rw [PowerSeries.coeff_C_mul, zseries_coeff, zseries_coeff, hst]
  rw [e, show ratio b a * (PowerSeries.C (U : K) * zseries (zeroStuffed x U)) =
    PowerSeries.C (U : K) * (ratio b a * zseries (zeroStuffed x U)) by ring,
    PowerSeries.coeff_C_mul, ← h2, zseries_coeff, zseries_coeff] at h1
  exact h1

theorem up_one (fs new : ℕ) (hn : 0 < new) : new / Nat.gcd new fs = 1 ↔ new ∣ fs := by
  constructor
  · intro h
    have h1 := Nat.div_mul_cancel (Nat.gcd_dvd_left new fs)
    rw [h, one_mul] at h1
    rw [← h1]
    exact Nat.gcd_dvd_right new fs
  · intro h
    rw [Nat.gcd_eq_left h, Nat.div_self hn]

theorem down_one (fs new : ℕ) (hf : 0 < fs) : fs / Nat.gcd new fs = 1 ↔ fs ∣ new := by
  rw [Nat.gcd_comm]
  exact up_one new fs hf

/-- **C23**, choice of the branch: new rates dividing the old one are reached by downsampling
with the quotient, multiples of the old one by upsampling with the quotient; the filter must
have the higher of both rates; everything else is rejected with AssertionError. -/
theorem C23_resample (F : ResampleFilter K) (x : List K) (fs new : ℕ) (hf : 0 < fs)
    (hn : 0 < new) :
    (new ∣ fs → F.fs = fs → resample F x fs new =
      if F.isFir then (downsample x F.b (fs / new)).map fun y => (y, new)
      else .ok (downsamplePlain x F.b F.a (fs / new), new)) ∧
    (fs ∣ new → new ≠ fs → F.fs = new → resample F x fs new =
      if F.isFir then (upsample x F.b (new / fs)).map fun y => (y, new)
      else .ok (upsamplePlain x F.b F.a (new / fs), new)) ∧
    (¬ (new ∣ fs ∧ F.fs = fs) → ¬ (fs ∣ new ∧ new ≠ fs ∧ F.fs = new) →
      resample F x fs new = .error .assertionError) := by
  refine ⟨fun h1 h2 => ?_, fun h1 h2 h3 => ?_, fun h1 h2 => ?_⟩
  · unfold resample
    rw [if_neg hf.ne']
    dsimp only
    have hu := (up_one fs new hn).mpr h1
    rw [if_neg (by rw [hu]; simp), if_pos hu, if_neg (by rw [h2]; simp), Nat.gcd_eq_left h1]
  · unfold resample
    rw [if_neg hf.ne']
    dsimp only
    have hd := (down_one fs new hf).mpr h1
    have hu : ¬ new / Nat.gcd new fs = 1 := by
      rw [up_one fs new hn]
      intro h
      exact h2 (Nat.dvd_antisymm h h1)
    rw [if_neg (by rw [hd]; simp), if_neg hu, Nat.gcd_eq_right h1,
      if_neg (by rw [h3, Nat.mul_div_cancel' h1]; simp)]
  · unfold resample
    rw [if_neg hf.ne']
    dsimp only
    by_cases hd : new ∣ fs
    · have hu := (up_one fs new hn).mpr hd
      rw [if_neg (by rw [hu]; simp), if_pos hu, if_pos (fun h => h1 ⟨hd, h.symm⟩)]
    · have hu : ¬ new / Nat.gcd new fs = 1 := by rw [up_one fs new hn]; exact hd
      by_cases hm : fs ∣ new
      · have hdn := (down_one fs new hf).mpr hm
        rw [if_neg (by rw [hdn]; simp), if_neg hu, Nat.gcd_eq_right hm,
          Nat.mul_div_cancel' hm, if_pos]
        intro h
        refine h2 ⟨hm, ?_, h.symm⟩
        rintro rfl
        exact hd (dvd_refl _)
      · have hdn : ¬ fs / Nat.gcd new fs = 1 := by rw [down_one fs new hf]; exact hm
        rw [if_pos (by push Not; exact ⟨hu, hdn⟩)]

/-- Concrete case: the filter `1 / (1 - z⁻¹ / 2)` with downsampling by two. -/
example : resample ⟨[1], [1, -1 / 2], false, 8⟩ ([1, 0, 0, 0, 0] : List ℚ) 8 4 =
    .ok ([1, 1 / 4, 1 / 16], 4) := by decide +kernel

end Verif.Polyphase
