import Verif.Props.C75
import Verif.Props.C45

/-!
# C75 (continued): the bins of a band
-/

namespace Verif.Beamforming

/-- Bin `i` is the first of the bins next to the frequency `p`. -/
def Nearest (f : List ℝ) (p : ℝ) (i : ℕ) : Prop :=
  i < f.length ∧ (∀ j < f.length, |p - f.getD i 0| ≤ |p - f.getD j 0|) ∧
    ∀ j < i, |p - f.getD i 0| < |p - f.getD j 0|

theorem Nearest.unique {f : List ℝ} {p : ℝ} {i j : ℕ} (hi : Nearest f p i) (hj : Nearest f p j) : i = j := by
  rcases lt_trichotomy i j with h | h | h
  · exact absurd (hi.2.1 j hj.1) (not_le.2 (hj.2.2 i h))
  · exact h
  · exact absurd (hj.2.1 i hi.1) (not_le.2 (hi.2.2 j h))

theorem edges (f : List ℝ) (hf : f ≠ []) (a b : ℝ) :
    ∃ i k, Nearest f a i ∧ Nearest f b k ∧ Helpers.findNearest [a, b] f = .ok [i, k] := by
  obtain ⟨idx, h, hl, hn⟩ := Helpers.C45_nearest [a, b] f hf
  obtain ⟨i, k, rfl⟩ : ∃ i k, idx = [i, k] := by
    match idx, hl with
    | [i, k], _ => exact ⟨i, k, rfl⟩
  exact ⟨i, k, hn 0 (by norm_num), hn 1 (by norm_num), h⟩

/-- The bins of a fractional octave band go from the bin next to its lower edge (inclusive) to the bin next
to its upper edge (exclusive), half a band below and above the center.  A band always has a bin. -/
theorem C75_band (f : List ℝ) (hf : f ≠ []) (fc : ℝ) (fraction : ℕ) (h0 : fraction ≠ 0) :
    ∃ i k, Nearest f (fc * (2 : ℝ) ^ (-(1 / (2 * fraction : ℝ)))) i ∧
      Nearest f (fc * (2 : ℝ) ^ (1 / (2 * fraction : ℝ))) k ∧
      bins f fc fraction = .ok (i, if i = k then i + 1 else k) := by
  obtain ⟨i, k, hi, hk, h⟩ := edges f hf (fc * (2 : ℝ) ^ (-(1 / (2 * fraction : ℝ))))
    (fc * (2 : ℝ) ^ (1 / (2 * fraction : ℝ)))
  refine ⟨i, k, hi, hk, ?_⟩
  unfold bins octaveBand
  rw [if_neg h0, show -1 / (fraction : ℝ) / 2 = -(1 / (2 * fraction : ℝ)) by ring,
    show 1 / (fraction : ℝ) / 2 = 1 / (2 * fraction : ℝ) by ring, h]
  simp only [List.getD_cons_zero, List.getD_cons_succ]
  split_ifs with hik
  · rw [hik]
  · rfl

/-- A single frequency has its nearest bin. -/
theorem C75_band_single (f : List ℝ) (hf : f ≠ []) (fc : ℝ) :
    ∃ i, Nearest f fc i ∧ bins f fc 0 = .ok (i, i + 1) := by
  obtain ⟨i, k, hi, hk, h⟩ := edges f hf fc fc
  obtain rfl := hi.unique hk
  refine ⟨i, hi, ?_⟩
  unfold bins octaveBand
  rw [if_pos rfl, h]
  simp

theorem nearest_mono (f : List ℝ) (hf : ∀ i j, i < j → j < f.length → f.getD i 0 < f.getD j 0) (a b : ℝ)
    (hab : a ≤ b) (i k : ℕ) (hi : Nearest f a i) (hk : Nearest f b k) : i ≤ k := by
  by_contra h
  have hik : k < i := not_le.1 h
  have h1 := hi.2.2 k hik
  have h2 := hk.2.1 i hi.1
  have h3 := hf k i hik hi.1
  have h4 := sq_lt_sq.2 h1
  have h5 := sq_le_sq.2 h2
  nlinarith

/-- With ascending frequencies a band has at least one bin. -/
theorem C75_band_nonempty (f : List ℝ) (hf : f ≠ [])
    (hs : ∀ i j, i < j → j < f.length → f.getD i 0 < f.getD j 0) (fc : ℝ) (hfc : 0 ≤ fc) (fraction : ℕ)
    (i j : ℕ) (h : bins f fc fraction = .ok (i, j)) : i < j ∧ j ≤ f.length := by
  by_cases h0 : fraction = 0
  · subst h0
    obtain ⟨i', hi, h'⟩ := C75_band_single f hf fc
    rw [h] at h'
    obtain ⟨rfl, rfl⟩ := Prod.mk.inj (Except.ok.inj h')
    exact ⟨by omega, hi.1⟩
  · obtain ⟨i', k, hi, hk, h'⟩ := C75_band f hf fc fraction h0
    rw [h] at h'
    obtain ⟨rfl, rfl⟩ := Prod.mk.inj (Except.ok.inj h')
    have hle : i ≤ k := nearest_mono f hs _ _ (mul_le_mul_of_nonneg_left
      (Real.rpow_le_rpow_of_exponent_le (by norm_num) (by
        have : (0 : ℝ) ≤ 1 / (2 * fraction) := by positivity
        linarith)) hfc) i k hi hk
    have h1 := hi.1
    have h2 := hk.1
    split_ifs with hik <;> omega

/-- Consecutive bands share no bin and leave none out, except where a band is narrower than the
distance of two bins. -/
theorem C75_bands_tile (f : List ℝ) (hf : f ≠ []) (fc : ℝ) (fraction : ℕ) (h0 : fraction ≠ 0) (i j i' j' : ℕ)
    (h : bins f fc fraction = .ok (i, j))
    (h' : bins f (fc * (2 : ℝ) ^ (1 / (fraction : ℝ))) fraction = .ok (i', j')) :
    j = i' ∨ (i' = i ∧ j = i + 1) := by
  obtain ⟨a, b, -, hb, e⟩ := C75_band f hf fc fraction h0
  obtain ⟨a', b', ha', -, e'⟩ := C75_band f hf (fc * (2 : ℝ) ^ (1 / (fraction : ℝ))) fraction h0
  rw [h] at e
  rw [h'] at e'
  obtain ⟨rfl, rfl⟩ := Prod.mk.inj (Except.ok.inj e)
  obtain ⟨rfl, rfl⟩ := Prod.mk.inj (Except.ok.inj e')
  have hedge : fc * (2 : ℝ) ^ (1 / (fraction : ℝ)) * (2 : ℝ) ^ (-(1 / (2 * fraction : ℝ))) =
      fc * (2 : ℝ) ^ (1 / (2 * fraction : ℝ)) := by
    rw [mul_assoc, ← Real.rpow_add two_pos]
    congr 2
    have : (fraction : ℝ) ≠ 0 := by exact_mod_cast h0
    field_simp
    norm_num
  rw [hedge] at ha'
  obtain rfl := hb.unique ha'
  split_ifs with hik
  · exact Or.inr ⟨hik.symm, rfl⟩
  · exact Or.inl rfl

/-- Coordinates of different lengths are rejected. -/
theorem C75_points (x y z : List ℝ) :
    makePoints x y z = .error .assertionError ↔ ¬ (x.length = y.length ∧ x.length = z.length) := by
  unfold makePoints
  split_ifs with h1 h2 <;> simp <;> omega

/-- Concrete case: an octave band with several bins. -/
example : ∃ i k, Nearest [0, 10, 20, 30, 40] (20 * (2 : ℝ) ^ (-(1 / (2 * (1 : ℕ) : ℝ)))) i ∧
    Nearest [0, 10, 20, 30, 40] (20 * (2 : ℝ) ^ (1 / (2 * (1 : ℕ) : ℝ))) k ∧
    bins [0, 10, 20, 30, 40] 20 1 = .ok (i, if i = k then i + 1 else k) :=
  C75_band _ (by simp) 20 1 one_ne_zero

end Verif.Beamforming
