import Verif.Model.Spectrum
import Mathlib.Tactic.Ring
import Mathlib.Tactic.Linarith

/-!
# Facts about the searches of the spectrum model
-/

set_option linter.unusedSectionVars false

namespace Verif.Spectrum

variable {K : Type} [Field K] [LinearOrder K] [IsStrictOrderedRing K]

/-- Strictly ascending frequency vectors. -/
def Ascending (freqs : List K) : Prop :=
  ∀ i j, i < j → j < freqs.length → freqs.getD i 0 < freqs.getD j 0

theorem Ascending.le {freqs : List K} (h : Ascending freqs) {i j : ℕ} (hij : i ≤ j)
    (hj : j < freqs.length) : freqs.getD i 0 ≤ freqs.getD j 0 := by
  rcases Nat.lt_or_ge i j with h1 | h1
  · exact (h i j h1 hj).le
  · rw [Nat.le_antisymm hij h1]

theorem Ascending.lt_iff {freqs : List K} (h : Ascending freqs) {i j : ℕ}
    (hi : i < freqs.length) (hj : j < freqs.length) :
    freqs.getD i 0 < freqs.getD j 0 ↔ i < j := by
  refine ⟨fun hh => ?_, fun hh => h i j hh hj⟩
  by_contra hc
  exact absurd (h.le (Nat.le_of_not_lt hc) hi) (not_le.mpr hh)

theorem takeWhile_length (l : List K) (p : K → Bool)
    (hp : ∀ i j, i ≤ j → j < l.length → p (l.getD j 0) = true → p (l.getD i 0) = true) :
    (l.takeWhile p).length ≤ l.length ∧
    ∀ k < l.length, (k < (l.takeWhile p).length ↔ p (l.getD k 0) = true) := by
  induction l with
  | nil => simp
  | cons a l ih =>
    have ih' := ih fun i j hij hj hpj => by
      have := hp (i + 1) (j + 1) (by omega) (by simpa using hj)
      simp only [List.getD_cons_succ] at this
      exact this hpj
    by_cases ha : p a = true
    · rw [List.takeWhile_cons, if_pos ha]
      refine ⟨by simpa using ih'.1, fun k hk => ?_⟩
      cases k with
      | zero => simp [ha]
      | succ k =>
        simp only [List.length_cons, List.getD_cons_succ]
        have := ih'.2 k (by simpa using hk)
        rw [← this]
        omega
    · rw [List.takeWhile_cons, if_neg ha]
      refine ⟨by simp, fun k hk => ?_⟩
      constructor
      · intro h; simp at h
      · intro h
        exact absurd (hp 0 k (Nat.zero_le _) hk h) (by simpa using ha)

/-- `searchsorted` counts the entries below `x`. -/
theorem searchSorted_spec (freqs : List K) (h : Ascending freqs) (x : K) :
    searchSorted freqs x ≤ freqs.length ∧
    ∀ k < freqs.length, (k < searchSorted freqs x ↔ freqs.getD k 0 < x) := by
  have := takeWhile_length freqs (fun f => decide (f < x)) (by
    intro i j hij hj hh
    simp only [decide_eq_true_eq] at hh ⊢
    exact lt_of_le_of_lt (h.le hij hj) hh)
  unfold searchSorted
  simpa using this

/-- `searchsorted` of an entry is its index. -/
theorem searchSorted_entry (freqs : List K) (h : Ascending freqs) (b : ℕ) (hb : b < freqs.length) :
    searchSorted freqs (freqs.getD b 0) = b := by
  obtain ⟨h1, h2⟩ := searchSorted_spec freqs h (freqs.getD b 0)
  have h3 : ¬ b < searchSorted freqs (freqs.getD b 0) := by
    rw [h2 b hb]
    exact lt_irrefl _
  by_contra hne
  have h4 : searchSorted freqs (freqs.getD b 0) < b := by omega
  have h5 := (h2 _ (lt_trans h4 hb)).mpr (h _ b h4 hb)
  omega

end Verif.Spectrum
