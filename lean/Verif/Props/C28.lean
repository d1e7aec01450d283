import Verif.Model.Scaling
import Mathlib.Tactic.NormNum
import Mathlib.Tactic.Linarith
import Mathlib.Tactic.Positivity
import Mathlib.Tactic.FieldSimp
import Mathlib.Tactic.Ring
import Mathlib.Algebra.Order.BigOperators.Group.List

/-!
# C28: conversions between spectrum scalings are consistent
-/

namespace Verif.Scaling

/-- The magnitude `m` of an unscaled bin in the given scaling: multiplied by the factor, and
squared before for a power scaling. -/
noncomputable def scaled (s : Scaling) (N fs : ℕ) (w : Option (List ℝ)) (m : ℝ) : ℝ :=
  if s.isAmplitude then m * factor s N fs w else m ^ 2 * factor s N fs w

/-- What a user does with the conversion factor according to its documentation: multiply
the data; if exactly one of the two scalings is a power scaling, multiply the squared data
(so amplitudes are squared before, or recovered by a square root). -/
noncomputable def convert (a b : Scaling) (N fs : ℕ) (w : Option (List ℝ)) (v : ℝ) : ℝ :=
  if a.isAmplitude = b.isAmplitude then v * conversionFactor a b N fs w
  else if a.isAmplitude then v ^ 2 * conversionFactor a b N fs w
  else Real.sqrt (v * conversionFactor a b N fs w)

/-- Parameters that make sense: samples, a sampling rate and a window with positive sum. -/
def Proper (N fs : ℕ) (w : Option (List ℝ)) : Prop :=
  0 < N ∧ 0 < fs ∧ ∀ l, w = some l → 0 < l.sum

theorem sum_sq_pos (l : List ℝ) (h : 0 < l.sum) : 0 < (l.map (· ^ 2)).sum := by
  have hnn : ∀ l : List ℝ, 0 ≤ (l.map (· ^ 2)).sum := by
    intro l
    refine List.sum_nonneg fun y hy => ?_
    obtain ⟨u, -, rfl⟩ := List.mem_map.mp hy
    positivity
  rcases (hnn l).lt_or_eq with h1 | h1
  · exact h1
  · exfalso
    have hz : ∀ l : List ℝ, (l.map (· ^ 2)).sum = 0 → l.sum = 0 := by
      intro l
      induction l with
      | nil => intro _; rfl
      | cons u l ih =>
        intro hs
        have hs' : u ^ 2 + (l.map (· ^ 2)).sum = 0 := by simpa using hs
        have h2 := hnn l
        have h3 := sq_nonneg u
        have h4 : u ^ 2 = 0 := by linarith
        have h5 : u = 0 := by simpa using h4
        have h6 := ih (by linarith)
        rw [List.sum_cons, h5, h6, add_zero]
    have := hz l h1.symm
    linarith

theorem factor_pos (s : Scaling) (N fs : ℕ) (w : Option (List ℝ)) (h : Proper N fs w) :
    0 < factor s N fs w := by
  obtain ⟨hN, hfs, hw⟩ := h
  have hN' : (0 : ℝ) < N := by exact_mod_cast hN
  have hfs' : (0 : ℝ) < fs := by exact_mod_cast hfs
  cases w with
  | none => cases s <;> simp only [factor, Scaling.isDensity, Scaling.isAmplitude,
      if_true, Bool.false_eq_true, if_false] <;> positivity
  | some l =>
    have h1 := hw l rfl
    have h2 := sum_sq_pos l h1
    cases s <;> simp only [factor, Scaling.isDensity, Scaling.isAmplitude,
      if_true, Bool.false_eq_true, if_false] <;> positivity

/-- Converting the value a scaling assigns to a bin gives the value the other scaling
assigns to this bin. -/
theorem C28_conversion_correct (a b : Scaling) (N fs : ℕ) (w : Option (List ℝ))
    (h : Proper N fs w) (m : ℝ) (hm : 0 ≤ m) :
    convert a b N fs w (scaled a N fs w m) = scaled b N fs w m := by
  have ha := factor_pos a N fs w h
  have hb := factor_pos b N fs w h
  unfold convert scaled conversionFactor
  generalize factor a N fs w = fa at *
  generalize factor b N fs w = fb at *
  cases hca : a.isAmplitude <;> cases hcb : b.isAmplitude <;>
    simp only [if_true, Bool.false_eq_true, if_false, reduceCtorEq]
  · field_simp
  · have : m ^ 2 * fa * (fb ^ (2 : ℝ) / fa) = (m * fb) ^ 2 := by
      rw [show ((2 : ℝ)) = ((2 : ℕ) : ℝ) by norm_num, Real.rpow_natCast]
      field_simp
    rw [this, Real.sqrt_sq (by positivity)]
  · rw [show ((2 : ℝ)) = ((2 : ℕ) : ℝ) by norm_num, Real.rpow_natCast]
    field_simp
  · field_simp

/-- Every non-negative value is the value of some bin. -/
theorem exists_scaled (a : Scaling) (N fs : ℕ) (w : Option (List ℝ)) (h : Proper N fs w)
    (v : ℝ) (hv : 0 ≤ v) : ∃ m, 0 ≤ m ∧ scaled a N fs w m = v := by
  have ha := factor_pos a N fs w h
  unfold scaled
  generalize factor a N fs w = fa at *
  cases hca : a.isAmplitude <;> simp only [if_true, Bool.false_eq_true, if_false]
  · refine ⟨Real.sqrt (v / fa), Real.sqrt_nonneg _, ?_⟩
    rw [Real.sq_sqrt (by positivity)]
    field_simp
  · exact ⟨v / fa, by positivity, by field_simp⟩

/-- Converting to another scaling and back restores the data. -/
theorem C28_round_trip (a b : Scaling) (N fs : ℕ) (w : Option (List ℝ)) (h : Proper N fs w)
    (v : ℝ) (hv : 0 ≤ v) : convert b a N fs w (convert a b N fs w v) = v := by
  obtain ⟨m, hm, rfl⟩ := exists_scaled a N fs w h v hv
  rw [C28_conversion_correct a b N fs w h m hm, C28_conversion_correct b a N fs w h m hm]

/-- Converting through an intermediate scaling is the direct conversion. -/
theorem C28_via_intermediate (a b c : Scaling) (N fs : ℕ) (w : Option (List ℝ))
    (h : Proper N fs w) (v : ℝ) (hv : 0 ≤ v) :
    convert b c N fs w (convert a b N fs w v) = convert a c N fs w v := by
  obtain ⟨m, hm, rfl⟩ := exists_scaled a N fs w h v hv
  rw [C28_conversion_correct a b N fs w h m hm, C28_conversion_correct b c N fs w h m hm,
    C28_conversion_correct a c N fs w h m hm]

/-- The factor of a scaling to itself is 1. -/
theorem C28_self (a : Scaling) (N fs : ℕ) (w : Option (List ℝ)) (h : Proper N fs w) :
    conversionFactor a a N fs w = 1 := by
  have ha := factor_pos a N fs w h
  unfold conversionFactor
  simp only [if_true]
  exact div_self ha.ne'

/-- Among scalings of the same kind the factors multiply to 1, so complex data (any sign or
phase) is restored as well. -/
theorem C28_factors_inverse (a b : Scaling) (N fs : ℕ) (w : Option (List ℝ))
    (h : Proper N fs w) :
    conversionFactor a b N fs w * conversionFactor b a N fs w = 1 := by
  have ha := factor_pos a N fs w h
  have hb := factor_pos b N fs w h
  unfold conversionFactor
  generalize factor a N fs w = fa at *
  generalize factor b N fs w = fb at *
  have h2 : ∀ x : ℝ, x ^ (2 : ℝ) = x ^ 2 := fun x => by
    rw [show ((2 : ℝ)) = ((2 : ℕ) : ℝ) by norm_num, Real.rpow_natCast]
  cases hca : a.isAmplitude <;> cases hcb : b.isAmplitude <;>
    simp only [if_true, Bool.false_eq_true, if_false, reduceCtorEq, h2] <;> field_simp

/-- The four physical scalings as the documentation defines them: the amplitude
scalings are the square roots of the power scalings. -/
theorem C28_power_is_square (N fs : ℕ) (w : Option (List ℝ)) (m : ℝ) :
    scaled .powSpectrum N fs w m = (scaled .ampSpectrum N fs w m) ^ 2 ∧
    scaled .powDensity N fs w m = (scaled .ampDensity N fs w m) ^ 2 := by
  have h2 : ∀ x : ℝ, x ^ (2 : ℝ) = x ^ 2 := fun x => by
    rw [show ((2 : ℝ)) = ((2 : ℕ) : ℝ) by norm_num, Real.rpow_natCast]
  cases w <;> constructor <;>
    simp only [scaled, factor, Scaling.isDensity, Scaling.isAmplitude,
      if_true, Bool.false_eq_true, if_false, h2] <;> ring

/-- Concrete case: parameters with a window are proper. -/
example : Proper 4 48000 (some [0, 1 / 2, 1, 1 / 2]) :=
  ⟨by norm_num, by norm_num, by rintro l h; cases h; norm_num⟩

/-- Concrete case: from the unscaled transform to the orthogonal one. -/
example : convert .fftBackward .fftForward 4 48000 none 8 = 2 := by
  norm_num [convert, conversionFactor, factor, Scaling.isAmplitude]

end Verif.Scaling
