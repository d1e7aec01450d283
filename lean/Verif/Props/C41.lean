import Verif.Props.C40
import Mathlib.Analysis.SpecialFunctions.Pow.Real
import Mathlib.Tactic.Positivity
import Verif.Model.Level

/-!
# C41: the energy of a spectrum is additive and monotone
-/

set_option linter.unusedSectionVars false

namespace Verif.Spectrum

variable {K : Type} [Field K] [LinearOrder K] [IsStrictOrderedRing K]

/-- The integral of the piecewise linear function through the points `(x k, y k)` from bin
`i` to bin `j`: the areas of the trapezoids in between. -/
def area (x y : ℕ → K) (i j : ℕ) : K :=
  ∑ k ∈ Finset.Ico i j, (x (k + 1) - x k) * (y k + y (k + 1)) / 2

theorem trapezoid_eq_area (y x : ℕ → K) (i j : ℕ) : trapezoid y x i j = area x y i (j - 1) := by
  unfold trapezoid area
  refine Finset.sum_congr rfl fun k _ => ?_
  rw [add_comm (y (k + 1))]

/-- The bins between which `get_energy` integrates: from the last bin not above the lower limit
(the first bin if there is none) to the first bin not below the upper limit (the last bin if
there is none). -/
def lowBin (freqs : List K) (lo : Option K) (i : ℕ) : Prop :=
  match lo with
  | none => i = 0
  | some l => i < freqs.length ∧ (freqs.getD i 0 ≤ l ∨ i = 0) ∧
      ∀ k < freqs.length, i < k → l < freqs.getD k 0

def highBin (freqs : List K) (hi : Option K) (j : ℕ) : Prop :=
  match hi with
  | none => j + 1 = freqs.length
  | some u => j < freqs.length ∧ (u ≤ freqs.getD j 0 ∨ j + 1 = freqs.length) ∧
      ∀ k < j, freqs.getD k 0 < u

theorem lowIndex_lowBin (freqs : List K) (h : Ascending freqs) (lo : Option K) (i : ℕ)
    (hi : lowIndex freqs lo true = .ok i) : lowBin freqs lo i := by
  cases lo with
  | none =>
    simp only [lowIndex, Except.ok.injEq] at hi
    exact hi.symm
  | some l =>
    obtain ⟨hs1, hs2⟩ := searchSorted_spec freqs h l
    simp only [lowIndex, if_true] at hi
    split_ifs at hi with h1 h2
    · cases hi
      refine ⟨by omega, Or.inl h2.le, fun k hk hik => ?_⟩
      have := h _ k hik hk
      rwa [h2] at this
    · cases hi
      have hlen : searchSorted freqs l < freqs.length := by omega
      have hge : ¬ freqs.getD (searchSorted freqs l) 0 < l := by
        rw [← hs2 _ hlen]
        exact lt_irrefl _
      have hgt : l < freqs.getD (searchSorted freqs l) 0 :=
        lt_of_le_of_ne (not_lt.mp hge) (Ne.symm h2)
      refine ⟨by omega, ?_, fun k hk hik => ?_⟩
      · by_cases h0 : searchSorted freqs l = 0
        · exact Or.inr (by omega)
        · exact Or.inl ((hs2 (searchSorted freqs l - 1) (by omega)).mp (by omega)).le
      · exact lt_of_lt_of_le hgt (h.le (by omega) hk)

theorem highIndex_highBin (freqs : List K) (h : Ascending freqs) (hne : freqs ≠ [])
    (hi : Option K) : highBin freqs hi (highIndex freqs hi true - 1) := by
  have hpos := List.length_pos_iff.mpr hne
  cases hi with
  | none =>
    show freqs.length - 1 + 1 = freqs.length
    omega
  | some u =>
    obtain ⟨hs1, hs2⟩ := searchSorted_spec freqs h u
    simp only [highIndex, if_true, highBin]
    refine ⟨by omega, ?_, fun k hk => (hs2 k (by omega)).mp (by omega)⟩
    by_cases hlt : searchSorted freqs u < freqs.length
    · left
      have : min (searchSorted freqs u + 1) freqs.length - 1 = searchSorted freqs u := by omega
      rw [this, ← not_lt, ← hs2 _ hlt]
      exact lt_irrefl _
    · right
      omega

/-- The energy is the integral of the squared magnitude between the bins that enclose the
limits. -/
theorem C41_energy_is_integral (freqs : List K) (h : Ascending freqs) (power : ℕ → ℕ → K)
    (lo hi : Option K) (c : ℕ) (e : K) (he : energy freqs power lo hi c = .ok e) :
    ∃ i j, i ≤ j ∧ j < freqs.length ∧ lowBin freqs lo i ∧ highBin freqs hi j ∧
      e = area (fun k => freqs.getD k 0) (fun k => power k c) i j := by
  unfold energy at he
  cases hsl : toSlice freqs lo hi true with
  | error er => rw [hsl] at he; cases he
  | ok p =>
    obtain ⟨i, j⟩ := p
    rw [hsl] at he
    obtain ⟨hij, hjl, hlow, hhigh⟩ := toSlice_le _ h _ _ _ _ _ hsl
    have hne : freqs ≠ [] := by
      intro h0
      rw [h0] at hjl
      simp at hjl
      omega
    refine ⟨i, j - 1, by omega, by omega, lowIndex_lowBin _ h _ _ hlow, ?_, ?_⟩
    · rw [hhigh]
      exact highIndex_highBin freqs h hne hi
    · rw [← trapezoid_eq_area]
      exact (Except.ok.inj he).symm

/-- The energy exists exactly if the lower limit is not above the last bin and the limits
enclose a bin. -/
theorem energy_ok_of (freqs : List K) (h : Ascending freqs) (power : ℕ → ℕ → K)
    (lo hi : Option K) (c b : ℕ) (hb : b < freqs.length)
    (hlo : ∀ l ∈ lo, l ≤ freqs.getD b 0) (hhi : ∀ u ∈ hi, freqs.getD b 0 ≤ u) :
    ∃ i j, i ≤ b ∧ b ≤ j ∧ j < freqs.length ∧ lowIndex freqs lo true = .ok i ∧
      j + 1 = highIndex freqs hi true ∧ energy freqs power lo hi c =
        .ok (area (fun k => freqs.getD k 0) (fun k => power k c) i j) := by
  have h1 : ∃ i ≤ b, lowIndex freqs lo true = .ok i := by
    cases lo with
    | none => exact ⟨0, by omega, rfl⟩
    | some l =>
      obtain ⟨hs1, hs2⟩ := searchSorted_spec freqs h l
      have hb' : ¬ b < searchSorted freqs l := by
        rw [hs2 b hb]
        exact not_lt.mpr (hlo l rfl)
      simp only [lowIndex, if_true]
      rw [if_neg (by omega)]
      refine ⟨_, ?_, rfl⟩
      split_ifs <;> omega
  have h2 : b < highIndex freqs hi true ∧ highIndex freqs hi true ≤ freqs.length := by
    cases hi with
    | none => exact ⟨hb, le_rfl⟩
    | some u =>
      obtain ⟨hs1, hs2⟩ := searchSorted_spec freqs h u
      simp only [highIndex, if_true]
      have : b ≤ searchSorted freqs u := by
        by_contra hc
        have h3 : searchSorted freqs u < freqs.length := by omega
        have h4 : ¬ freqs.getD (searchSorted freqs u) 0 < u := by
          rw [← hs2 _ h3]
          exact lt_irrefl _
        have h5 := h (searchSorted freqs u) b (by omega) hb
        exact h4 (lt_of_lt_of_le h5 (hhi u rfl))
      omega
  obtain ⟨i, hib, hi'⟩ := h1
  refine ⟨i, highIndex freqs hi true - 1, hib, by omega, by omega, hi', by omega, ?_⟩
  unfold energy toSlice
  rw [hi']
  simp only
  rw [if_pos (by omega), ← trapezoid_eq_area]

/-- The energy over `[a, c]` is the sum of the energies over `[a, b]` and `[b, c]` for every
bin `b` in between. -/
theorem C41_additive (freqs : List K) (h : Ascending freqs) (power : ℕ → ℕ → K)
    (lo hi : Option K) (c b : ℕ) (hb : b < freqs.length)
    (hlo : ∀ l ∈ lo, l ≤ freqs.getD b 0) (hhi : ∀ u ∈ hi, freqs.getD b 0 ≤ u) :
    ∃ e e1 e2, energy freqs power lo hi c = .ok e ∧
      energy freqs power lo (some (freqs.getD b 0)) c = .ok e1 ∧
      energy freqs power (some (freqs.getD b 0)) hi c = .ok e2 ∧ e = e1 + e2 := by
  obtain ⟨i, j, hib, hbj, hj, hI, hJ, he⟩ := energy_ok_of freqs h power lo hi c b hb hlo hhi
  obtain ⟨i1, j1, -, -, -, hI1, hJ1, he1⟩ := energy_ok_of freqs h power lo
    (some (freqs.getD b 0)) c b hb hlo (by intro u hu; cases hu; exact le_rfl)
  obtain ⟨i2, j2, -, -, -, hI2, hJ2, he2⟩ := energy_ok_of freqs h power
    (some (freqs.getD b 0)) hi c b hb (by intro u hu; cases hu; exact le_rfl) hhi
  refine ⟨_, _, _, he, he1, he2, ?_⟩
  have hss := searchSorted_entry freqs h b hb
  have e1 : i1 = i := by rw [hI] at hI1; exact (Except.ok.inj hI1).symm
  have e2 : j1 = b := by
    simp only [highIndex, if_true, hss] at hJ1
    omega
  have e3 : i2 = b := by
    simp only [lowIndex, if_true, hss] at hI2
    rw [if_neg (by omega)] at hI2
    exact (Except.ok.inj hI2).symm
  have e4 : j2 = j := by omega
  subst e1 e2 e3 e4
  unfold area
  rw [Finset.sum_Ico_consecutive _ hib hbj]

theorem area_nonneg (freqs : List K) (h : Ascending freqs) (p : ℕ → K) (hp : ∀ k, 0 ≤ p k)
    (i j : ℕ) (hj : j < freqs.length) : 0 ≤ area (fun k => freqs.getD k 0) p i j := by
  unfold area
  refine Finset.sum_nonneg fun k hk => ?_
  have hk2 := (Finset.mem_Ico.mp hk).2
  have h1 := h k (k + 1) (by omega) (by omega)
  have h2 := hp k
  have h3 := hp (k + 1)
  have h4 : 0 ≤ freqs.getD (k + 1) 0 - freqs.getD k 0 := sub_nonneg.mpr h1.le
  positivity

/-- The energy is never negative. -/
theorem C41_nonneg (freqs : List K) (h : Ascending freqs) (power : ℕ → ℕ → K)
    (hp : ∀ k c, 0 ≤ power k c) (lo hi : Option K) (c : ℕ) (e : K)
    (he : energy freqs power lo hi c = .ok e) : 0 ≤ e := by
  obtain ⟨i, j, -, hj, -, -, rfl⟩ := C41_energy_is_integral freqs h power lo hi c e he
  exact area_nonneg freqs h _ (fun k => hp k c) i j hj

/-- Enlarging the region does not decrease the energy: the part of `[lo, hi]` below a bin, and
the part above it. -/
theorem C41_monotone (freqs : List K) (h : Ascending freqs) (power : ℕ → ℕ → K)
    (hp : ∀ k c, 0 ≤ power k c) (lo hi : Option K) (c b : ℕ) (hb : b < freqs.length)
    (hlo : ∀ l ∈ lo, l ≤ freqs.getD b 0) (hhi : ∀ u ∈ hi, freqs.getD b 0 ≤ u) :
    ∃ e e1 e2, energy freqs power lo hi c = .ok e ∧
      energy freqs power lo (some (freqs.getD b 0)) c = .ok e1 ∧
      energy freqs power (some (freqs.getD b 0)) hi c = .ok e2 ∧ e1 ≤ e ∧ e2 ≤ e := by
  obtain ⟨e, e1, e2, he, he1, he2, hsum⟩ := C41_additive freqs h power lo hi c b hb hlo hhi
  refine ⟨e, e1, e2, he, he1, he2, ?_, ?_⟩
  · have := C41_nonneg freqs h power hp _ _ c e2 he2
    linarith
  · have := C41_nonneg freqs h power hp _ _ c e1 he1
    linarith

/-- Multiplying the magnitudes by `g` multiplies the energy by `g²`. -/
theorem C41_gain (freqs : List K) (mag : ℕ → ℕ → K) (g : K) (lo hi : Option K) (c : ℕ) (e : K)
    (he : energy freqs (fun k c => mag k c ^ 2) lo hi c = .ok e) :
    energy freqs (fun k c => (g * mag k c) ^ 2) lo hi c = .ok (g ^ 2 * e) := by
  unfold energy at he ⊢
  cases hsl : toSlice freqs lo hi true with
  | error er => rw [hsl] at he; cases he
  | ok p =>
    obtain ⟨i, j⟩ := p
    rw [hsl] at he
    cases he
    simp only
    congr 1
    unfold trapezoid
    rw [Finset.mul_sum]
    refine Finset.sum_congr rfl fun k _ => ?_
    ring

/-- Concrete case: four bins, the second and third as limits. -/
example : energy demoSpec.freqs (fun k _ => (k : ℚ) ^ 2) none (some 25) 0 = .ok 95 ∧
    energy demoSpec.freqs (fun k _ => (k : ℚ) ^ 2) none (some 10) 0 = .ok 5 ∧
    energy demoSpec.freqs (fun k _ => (k : ℚ) ^ 2) (some 10) (some 25) 0 = .ok 90 := by
  refine ⟨?_, ?_, ?_⟩ <;> decide +kernel

end Verif.Spectrum
