import Verif.Lemmas.Spectrum
import Mathlib.Algebra.Order.Ring.Rat
import Mathlib.Algebra.Field.Rat
import Mathlib.Tactic.NormNum

/-!
# C40: trimming a spectrum keeps exactly the bins of the requested range
-/

set_option linter.unusedSectionVars false

namespace Verif.Spectrum

variable {K D : Type} [Field K] [LinearOrder K] [IsStrictOrderedRing K]

/-- Spectra as they come out of the constructor. -/
structure Valid (s : Spec K D) : Prop where
  asc : Ascending s.freqs
  rows : s.data.rows = s.freqs.length
  tall : s.data.cols ≤ s.data.rows

/-- `t` is what is left of `s` when the bins `i..j-1` are kept: frequencies and data are
still aligned. -/
def Kept (s t : Spec K D) (i j : ℕ) : Prop :=
  i < j ∧ j ≤ s.freqs.length ∧ t.freqs.length = j - i ∧ t.data.rows = j - i ∧
    t.data.cols = s.data.cols ∧
    ∀ k < j - i, t.freqs.getD k 0 = s.freqs.getD (i + k) 0 ∧
      ∀ c < s.data.cols, t.data.val k c = s.data.val (i + k) c

theorem getD_slice (l : List K) (i j k : ℕ) (hk : k < j - i) :
    ((l.drop i).take (j - i)).getD k 0 = l.getD (i + k) 0 := by
  simp only [List.getD_eq_getElem?_getD]
  rw [List.getElem?_take_of_lt hk, List.getElem?_drop]

theorem toSlice_le (freqs : List K) (hasc : Ascending freqs) (lo hi : Option K) (inclusive : Bool)
    (i j : ℕ) (h : toSlice freqs lo hi inclusive = .ok (i, j)) :
    i < j ∧ j ≤ freqs.length ∧ lowIndex freqs lo inclusive = .ok i ∧
      j = highIndex freqs hi inclusive := by
  unfold toSlice at h
  cases hl : lowIndex freqs lo inclusive with
  | error e => rw [hl] at h; cases h
  | ok i' =>
    rw [hl] at h
    simp only at h
    split_ifs at h with hlt
    cases h
    refine ⟨hlt, ?_, rfl, rfl⟩
    unfold highIndex
    cases hi with
    | none => exact le_rfl
    | some u =>
      simp only
      split_ifs
      · exact min_le_right _ _
      · exact (searchSorted_spec freqs hasc u).1

/-- The result of a trim in terms of the slice: the kept rows, if there are not fewer bins
left than channels. -/
theorem trim_slice (s : Spec K D) (hs : Valid s) (lo hi : Option K) (inclusive : Bool)
    (i j : ℕ) (h : toSlice s.freqs lo hi inclusive = .ok (i, j)) :
    (s.data.cols ≤ j - i → ∃ t, trim s lo hi inclusive = (t, none) ∧ Kept s t i j) ∧
    (j - i < s.data.cols → ∃ t, trim s lo hi inclusive = (t, some .assertionError) ∧
      t.freqs = (s.freqs.drop i).take (j - i) ∧ t.data = s.data) := by
  obtain ⟨hij, hjl, -, -⟩ := toSlice_le _ hs.asc _ _ _ _ _ h
  have hlen : ((s.freqs.drop i).take (j - i)).length = j - i := by
    rw [List.length_take, List.length_drop]
    omega
  have htrim : trim s lo hi inclusive = setSpectral ⟨(s.freqs.drop i).take (j - i), s.data⟩
      (sliceRows s.data i j) := by
    unfold trim
    rw [h]
  rw [htrim]
  unfold setSpectral
  constructor
  · intro hc
    have hup : upright (sliceRows s.data i j) = sliceRows s.data i j :=
      if_neg (show ¬ j - i < s.data.cols by omega)
    rw [hup, if_pos (by exact hlen.symm)]
    exact ⟨_, rfl, hij, hjl, hlen, rfl, rfl, fun k hk => ⟨getD_slice _ _ _ _ hk, fun c _ => rfl⟩⟩
  · intro hc
    have hup : upright (sliceRows s.data i j) = (sliceRows s.data i j).T :=
      if_pos (show j - i < s.data.cols by omega)
    rw [hup, if_neg (by
      show ¬ s.data.cols = ((s.freqs.drop i).take (j - i)).length
      omega)]
    exact ⟨_, rfl, rfl, rfl⟩

/-- Inclusive trimming: all bins in the requested range are kept, and besides them at most
one below the lower limit and at most one above the upper limit. -/
theorem C40_inclusive (s t : Spec K D) (hs : Valid s) (lo hi : Option K)
    (h : trim s lo hi true = (t, none)) :
    ∃ i j, Kept s t i j ∧
      (∀ k < s.freqs.length, (∀ l ∈ lo, l ≤ s.freqs.getD k 0) → (∀ u ∈ hi, s.freqs.getD k 0 ≤ u) →
        i ≤ k ∧ k < j) ∧
      (∀ k, i < k → k < j → ∀ l ∈ lo, l ≤ s.freqs.getD k 0) ∧
      (∀ k, i ≤ k → k + 1 < j → ∀ u ∈ hi, s.freqs.getD k 0 ≤ u) := by
  cases hsl : toSlice s.freqs lo hi true with
  | error e =>
    unfold trim at h
    rw [hsl] at h
    cases (Prod.ext_iff.mp h).2
  | ok p =>
    obtain ⟨i, j⟩ := p
    obtain ⟨h1, h2⟩ := trim_slice s hs lo hi true i j hsl
    obtain ⟨hij, hjl, hlow, hhigh⟩ := toSlice_le _ hs.asc _ _ _ _ _ hsl
    rcases Nat.lt_or_ge (j - i) s.data.cols with hc | hc
    · obtain ⟨t', ht', -⟩ := h2 hc
      rw [ht'] at h
      cases (Prod.ext_iff.mp h).2
    · obtain ⟨t', ht', hk⟩ := h1 hc
      rw [ht'] at h
      cases h
      refine ⟨i, j, hk, fun k hkl hlo hhi => ⟨?_, ?_⟩, fun k hik hkj l hl => ?_,
        fun k hik hkj u hu => ?_⟩
      · -- not below the slice
        cases lo with
        | none =>
          simp only [lowIndex, Except.ok.injEq] at hlow
          omega
        | some l =>
          obtain ⟨hs1, hs2⟩ := searchSorted_spec s.freqs hs.asc l
          have hll := hlo l rfl
          have : ¬ k < searchSorted s.freqs l := by
            rw [hs2 k hkl]
            exact not_lt.mpr hll
          simp only [lowIndex, if_true] at hlow
          split_ifs at hlow <;> cases hlow <;> omega
      · cases hi with
        | none =>
          simp only [highIndex] at hhigh
          omega
        | some u =>
          obtain ⟨hs1, hs2⟩ := searchSorted_spec s.freqs hs.asc u
          have hll := hhi u rfl
          simp only [highIndex, if_true] at hhigh
          have : k ≤ searchSorted s.freqs u := by
            by_contra hcon
            have h3 : searchSorted s.freqs u < s.freqs.length := by omega
            have h4 : ¬ s.freqs.getD (searchSorted s.freqs u) 0 < u := by
              rw [← hs2 _ h3]
              exact lt_irrefl _
            have h5 := hs.asc (searchSorted s.freqs u) k (by omega) hkl
            exact h4 (lt_of_lt_of_le h5 hll)
          omega
      · have hl' : lo = some l := hl
        subst hl'
        obtain ⟨hs1, hs2⟩ := searchSorted_spec s.freqs hs.asc l
        simp only [lowIndex, if_true] at hlow
        have : ¬ k < searchSorted s.freqs l := by
          split_ifs at hlow <;> cases hlow <;> omega
        rw [hs2 k (by omega)] at this
        exact not_lt.mp this
      · have hu' : hi = some u := hu
        subst hu'
        obtain ⟨hs1, hs2⟩ := searchSorted_spec s.freqs hs.asc u
        simp only [highIndex, if_true] at hhigh
        exact ((hs2 k (by omega)).mp (by omega)).le

/-- Exclusive trimming keeps exactly the bins strictly inside, if the lower limit is absent
or one of the bins. -/
theorem C40_exclusive_partial (s t : Spec K D) (hs : Valid s) (lo hi : Option K)
    (hgrid : ∀ l ∈ lo, ∃ b < s.freqs.length, s.freqs.getD b 0 = l)
    (h : trim s lo hi false = (t, none)) :
    ∃ i j, Kept s t i j ∧ ∀ k < s.freqs.length, (i ≤ k ∧ k < j ↔
      (∀ l ∈ lo, l < s.freqs.getD k 0) ∧ (∀ u ∈ hi, s.freqs.getD k 0 < u)) := by
  cases hsl : toSlice s.freqs lo hi false with
  | error e =>
    unfold trim at h
    rw [hsl] at h
    cases (Prod.ext_iff.mp h).2
  | ok p =>
    obtain ⟨i, j⟩ := p
    obtain ⟨h1, h2⟩ := trim_slice s hs lo hi false i j hsl
    obtain ⟨hij, hjl, hlow, hhigh⟩ := toSlice_le _ hs.asc _ _ _ _ _ hsl
    rcases Nat.lt_or_ge (j - i) s.data.cols with hc | hc
    · obtain ⟨t', ht', -⟩ := h2 hc
      rw [ht'] at h
      cases (Prod.ext_iff.mp h).2
    · obtain ⟨t', ht', hk⟩ := h1 hc
      rw [ht'] at h
      cases h
      refine ⟨i, j, hk, fun k hkl => ?_⟩
      have hL : i ≤ k ↔ ∀ l ∈ lo, l < s.freqs.getD k 0 := by
        cases lo with
        | none =>
          simp only [lowIndex, Except.ok.injEq] at hlow
          subst hlow
          simp
        | some l =>
          obtain ⟨b, hb, hbl⟩ := hgrid l rfl
          simp only [lowIndex, Bool.false_eq_true, if_false, Except.ok.injEq] at hlow
          rw [← hbl, searchSorted_entry s.freqs hs.asc b hb] at hlow
          subst hlow
          simp only [Option.mem_some_iff, forall_eq', Order.add_one_le_iff]
          rw [← hbl, hs.asc.lt_iff hb hkl]
      have hU : k < j ↔ ∀ u ∈ hi, s.freqs.getD k 0 < u := by
        cases hi with
        | none =>
          simp only [highIndex] at hhigh
          subst hhigh
          simp [hkl]
        | some u =>
          obtain ⟨hs1, hs2⟩ := searchSorted_spec s.freqs hs.asc u
          simp only [highIndex, Bool.false_eq_true, if_false] at hhigh
          subst hhigh
          simp only [Option.mem_some_iff, forall_eq']
          exact hs2 k hkl
      rw [hL, hU]

/-- With a lower limit between two bins the first bin inside the range is lost. -/
theorem C40_exclusive_loses_bin (s t : Spec K D) (hs : Valid s) (l : K) (hi : Option K) (b : ℕ)
    (hb : b < s.freqs.length) (_hin : l < s.freqs.getD b 0)
    (hfirst : ∀ k < b, s.freqs.getD k 0 < l) (h : trim s (some l) hi false = (t, none)) :
    ∃ i j, Kept s t i j ∧ b < i := by
  cases hsl : toSlice s.freqs (some l) hi false with
  | error e =>
    unfold trim at h
    rw [hsl] at h
    cases (Prod.ext_iff.mp h).2
  | ok p =>
    obtain ⟨i, j⟩ := p
    obtain ⟨h1, h2⟩ := trim_slice s hs (some l) hi false i j hsl
    obtain ⟨hij, hjl, hlow, hhigh⟩ := toSlice_le _ hs.asc _ _ _ _ _ hsl
    rcases Nat.lt_or_ge (j - i) s.data.cols with hc | hc
    · obtain ⟨t', ht', -⟩ := h2 hc
      rw [ht'] at h
      cases (Prod.ext_iff.mp h).2
    · obtain ⟨t', ht', hk⟩ := h1 hc
      rw [ht'] at h
      cases h
      refine ⟨i, j, hk, ?_⟩
      simp only [lowIndex, Bool.false_eq_true, if_false, Except.ok.injEq] at hlow
      obtain ⟨hs1, hs2⟩ := searchSorted_spec s.freqs hs.asc l
      have h3 : ¬ searchSorted s.freqs l < b := by
        intro h4
        have := (hs2 _ (lt_trans h4 hb)).mpr (hfirst _ h4)
        omega
      omega

/-- A rejected call leaves the spectrum as it was, as long as the limits select at least as
many bins as there are channels (or none). -/
theorem C40_rejected_partial (s t : Spec K D) (hs : Valid s) (lo hi : Option K) (inclusive : Bool)
    (e : Err) (h : trim s lo hi inclusive = (t, some e))
    (henough : ∀ i j, toSlice s.freqs lo hi inclusive = .ok (i, j) → s.data.cols ≤ j - i) :
    t = s := by
  cases hsl : toSlice s.freqs lo hi inclusive with
  | error e' =>
    unfold trim at h
    rw [hsl] at h
    cases h
    rfl
  | ok p =>
    obtain ⟨i, j⟩ := p
    obtain ⟨t', ht', -⟩ := (trim_slice s hs lo hi inclusive i j hsl).1 (henough i j hsl)
    rw [ht'] at h
    cases (Prod.ext_iff.mp h).2

/-- Trimming to fewer bins than there are channels raises after the frequency vector was
shortened: the object is left with data and frequencies of different lengths. -/
theorem C40_rejected_breaks (s : Spec K D) (hs : Valid s) (lo hi : Option K) (inclusive : Bool)
    (i j : ℕ) (hsl : toSlice s.freqs lo hi inclusive = .ok (i, j)) (hfew : j - i < s.data.cols) :
    ∃ t, trim s lo hi inclusive = (t, some .assertionError) ∧ t.data.rows ≠ t.freqs.length := by
  obtain ⟨t, ht, hf, hd⟩ := (trim_slice s hs lo hi inclusive i j hsl).2 hfew
  obtain ⟨hij, hjl, -, -⟩ := toSlice_le _ hs.asc _ _ _ _ _ hsl
  refine ⟨t, ht, ?_⟩
  rw [hf, hd, List.length_take, List.length_drop]
  have := hs.tall
  omega

/-- A lower limit above the last bin raises IndexError in inclusive mode. -/
theorem C40_above_last_raises (s : Spec K D) (hs : Valid s) (l : K) (hi : Option K)
    (h : ∀ k < s.freqs.length, s.freqs.getD k 0 < l) :
    trim s (some l) hi true = (s, some .indexError) := by
  obtain ⟨hs1, hs2⟩ := searchSorted_spec s.freqs hs.asc l
  have h3 : s.freqs.length ≤ searchSorted s.freqs l := by
    by_contra hc
    have h4 : searchSorted s.freqs l < s.freqs.length := by omega
    have := (hs2 _ h4).mpr (h _ h4)
    omega
  unfold trim toSlice lowIndex
  simp only [if_true]
  rw [if_pos h3]

/-- Concrete case: four bins, one channel. -/
def demoSpec : Spec ℚ ℚ := ⟨[0, 10, 20, 30], ⟨4, 1, fun r _ => r⟩⟩

example : Valid demoSpec ∧ toSlice demoSpec.freqs (some 10) (some 25) true = .ok (1, 4) ∧
    toSlice demoSpec.freqs (some 10) (some 25) false = .ok (2, 3) ∧
    toSlice demoSpec.freqs (some 5) (some 25) false = .ok (2, 3) := by
  refine ⟨⟨?_, rfl, by decide⟩, by decide +kernel, by decide +kernel, by decide +kernel⟩
  intro i j hij hj
  have hj' : j < 4 := hj
  have : ∀ i < 4, ∀ j < 4, i < j → ([0, 10, 20, 30] : List ℚ).getD i 0 <
    ([0, 10, 20, 30] : List ℚ).getD j 0 := by decide +kernel
  exact this i (by omega) j hj' hij

end Verif.Spectrum
