import Verif.Model.FilterBank
import Verif.Spec.TransferFunction
import Verif.Lemmas.SignalData
import Mathlib.Algebra.BigOperators.Fin

/-! Lemmas about filter banks. -/

set_option linter.unusedSectionVars false

namespace Verif

section
variable {K : Type} [Field K]

theorem AgreeUpTo.refl (N : ℕ) (p : PowerSeries K) : AgreeUpTo N p p := fun _ _ => rfl

theorem AgreeUpTo.symm {N : ℕ} {p q : PowerSeries K} (h : AgreeUpTo N p q) : AgreeUpTo N q p :=
  fun n hn => (h n hn).symm

theorem AgreeUpTo.trans {N : ℕ} {p q r : PowerSeries K} (h : AgreeUpTo N p q)
    (h' : AgreeUpTo N q r) : AgreeUpTo N p r := fun n hn => (h n hn).trans (h' n hn)

theorem AgreeUpTo.add {N : ℕ} {p q p' q' : PowerSeries K} (h : AgreeUpTo N p q)
    (h' : AgreeUpTo N p' q') : AgreeUpTo N (p + p') (q + q') := by
  intro n hn
  rw [map_add, map_add, h n hn, h' n hn]

theorem AgreeUpTo.mul_left {N : ℕ} (r : PowerSeries K) {p q : PowerSeries K}
    (h : AgreeUpTo N p q) : AgreeUpTo N (r * p) (r * q) := by
  intro n hn
  rw [PowerSeries.coeff_mul, PowerSeries.coeff_mul]
  refine Finset.sum_congr rfl fun x hx => ?_
  have := Finset.mem_antidiagonal.mp hx
  rw [h x.2 (by omega)]

theorem zseries_coeff (x : List K) (n : ℕ) : PowerSeries.coeff n (zseries x) = x.getD n 0 := by
  simp [zseries]

/-- If `A Y = B X` up to `N` and `a[0] ≠ 0`, then `Y = (B / A) X` up to `N`. -/
theorem agree_ratio (N : ℕ) (b a : List K) (X Y : PowerSeries K) (ha : a.getD 0 0 ≠ 0)
    (h : AgreeUpTo N (zseries a * Y) (zseries b * X)) : AgreeUpTo N Y (ratio b a * X) := by
  have hne : PowerSeries.constantCoeff (zseries a) ≠ 0 := by
    rw [← PowerSeries.coeff_zero_eq_constantCoeff_apply, zseries_coeff]
    exact ha
  have h1 := h.mul_left (zseries a)⁻¹
  rw [← mul_assoc, PowerSeries.inv_mul_cancel _ hne, one_mul] at h1
  have h2 : (zseries a)⁻¹ * (zseries b * X) = ratio b a * X := by
    unfold ratio
    ring
  rwa [h2] at h1

end

namespace Bank

open SignalData LFilter

variable {K : Type} [Field K]

theorem lfSeq_eq (b a : List K) (x : ℕ → K) (n : ℕ) (ha : a.getD 0 0 ≠ 0) :
    a.getD 0 0 * lfSeq b a x n + ∑ m ∈ Finset.range n, a.getD (n - m) 0 * lfSeq b a x m =
      ∑ m ∈ Finset.range (n + 1), b.getD m 0 * x (n - m) := by
  rw [lfSeq, mul_div_cancel₀ _ ha,
    Finset.sum_range (fun m => a.getD (n - m) 0 * lfSeq b a x m)]
  ring

theorem lfilter_length (b a x : List K) : (lfilter b a x).length = x.length := by simp [lfilter]

theorem lfilter_agree (b a x : List K) (ha : a.getD 0 0 ≠ 0) :
    AgreeUpTo x.length (zseries (lfilter b a x)) (ratio b a * zseries x) := by
  refine agree_ratio _ b a _ _ ha ?_
  intro n hn
  have hy : ∀ j ≤ n, (lfilter b a x).getD j 0 = lfSeq b a (fun n => x.getD n 0) j := by
    intro j hj
    unfold lfilter
    rw [getD_map_range, if_pos (by omega)]
  rw [PowerSeries.coeff_mul, PowerSeries.coeff_mul,
    Finset.Nat.sum_antidiagonal_eq_sum_range_succ
      (fun i j => PowerSeries.coeff i (zseries b) * PowerSeries.coeff j (zseries x))]
  simp only [zseries_coeff]
  rw [← lfSeq_eq b a (fun n => x.getD n 0) n ha, Finset.Nat.sum_antidiagonal_eq_sum_range_succ
      (fun i j => a.getD i 0 * (lfilter b a x).getD j 0),
    ← Finset.sum_range_reflect, Finset.sum_range_succ, add_comm]
  congr 1
  · rw [show n + 1 - 1 - n = 0 by omega, Nat.sub_zero, hy n le_rfl]
  · refine Finset.sum_congr rfl fun m hm => ?_
    have := Finset.mem_range.mp hm
    rw [show n + 1 - 1 - m = n - m by omega, show n - (n - m) = m by omega, hy m (by omega)]

theorem fir_agree (b x : List K) :
    AgreeUpTo x.length (zseries ((fullConv b x).take x.length)) (zseries b * zseries x) := by
  intro n hn
  rw [PowerSeries.coeff_mul, Finset.Nat.sum_antidiagonal_eq_sum_range_succ
      (fun i j => PowerSeries.coeff i (zseries b) * PowerSeries.coeff j (zseries x))]
  simp only [zseries_coeff]
  rw [getD_take _ _ _ hn, fullConv_getD]
  by_cases hlt : b.length ≤ n + 1
  · rw [← Finset.sum_subset (Finset.range_mono hlt)]
    · refine Finset.sum_congr rfl fun m hm => ?_
      have := Finset.mem_range.mp hm
      rw [if_pos (by omega)]
    · intro m _ hm
      rw [List.getD_eq_default b _ (by simpa using hm), zero_mul]
  · rw [← Finset.sum_subset (Finset.range_mono (by omega : n + 1 ≤ b.length))]
    · refine Finset.sum_congr rfl fun m hm => ?_
      have := Finset.mem_range.mp hm
      rw [if_pos (by omega)]
    · intro m _ hm
      rw [if_neg (by simpa using hm)]

theorem fir_length (b x : List K) (hb : b ≠ []) :
    ((fullConv b x).take x.length).length = x.length := by
  have := List.length_pos_of_ne_nil hb
  rw [List.length_take, length_fullConv]
  omega

/-- Transfer function of a filter. -/
noncomputable def Filt.H : Filt K → PowerSeries K
  | .fir b => zseries b
  | .ba b a => ratio b a
  | .sos secs => (secs.map fun s => ratio s.1 s.2).prod

/-- Filters that can be computed. -/
def Filt.Proper : Filt K → Prop
  | .fir b => b ≠ []
  | .ba _ a => a.getD 0 0 ≠ 0
  | .sos secs => ∀ s ∈ secs, s.2.getD 0 0 ≠ 0

theorem channel_length (F : Filt K) (h : F.Proper) (x : List K) :
    (F.channel x).length = x.length := by
  cases F with
  | fir b => exact fir_length b x h
  | ba b a => exact lfilter_length b a x
  | sos secs =>
    simp only [Filt.channel]
    clear h
    induction secs generalizing x with
    | nil => rfl
    | cons s rest ih =>
      rw [List.foldl_cons, ih, lfilter_length]

/-- A filter multiplies the z-transform of the channel by its transfer function. -/
theorem channel_agree (F : Filt K) (h : F.Proper) (x : List K) :
    AgreeUpTo x.length (zseries (F.channel x)) (F.H * zseries x) := by
  cases F with
  | fir b => exact fir_agree b x
  | ba b a => exact lfilter_agree b a x h
  | sos secs =>
    simp only [Filt.channel, Filt.H]
    simp only [Filt.Proper] at h
    induction secs generalizing x with
    | nil => simpa using AgreeUpTo.refl _ _
    | cons s rest ih =>
      rw [List.foldl_cons, List.map_cons, List.prod_cons]
      have h1 := ih (lfilter s.1 s.2 x) fun t ht => h t (List.mem_cons_of_mem _ ht)
      rw [lfilter_length] at h1
      have h2 := (lfilter_agree s.1 s.2 x (h s (by simp))).mul_left
        (rest.map fun s => ratio s.1 s.2).prod
      refine (h1.trans h2).trans ?_
      rw [show ∀ p q r : PowerSeries K, p * (q * r) = q * p * r from fun p q r => by ring]
      exact AgreeUpTo.refl _ _

end Bank

end Verif
