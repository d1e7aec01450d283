import Verif.Model.Mel
import Verif.Props.C45
import Mathlib.Algebra.Order.BigOperators.Group.Finset
import Mathlib.Tactic.Linarith
import Mathlib.Tactic.NormNum
import Mathlib.Tactic.FieldSimp
import Mathlib.Tactic.IntervalCases
import Mathlib.Tactic.Ring

/-!
# C70: the mel filter bank

The mel scale is invertible; the filters are triangles between neighbouring centre frequencies
that add up to one.  Bands narrower than the resolution are nan after normalisation.
-/

namespace Verif.Props.C70

open Mel Finset

/-- The mel scale and its inverse. -/
theorem C70_scale :
    (∀ f, -700 < f → mel2hz (hz2mel f) = f) ∧ (∀ m, hz2mel (mel2hz m) = m) ∧
      (∀ f g, -700 < f → f < g → hz2mel f < hz2mel g) ∧ (∀ m n, m < n → mel2hz m < mel2hz n) ∧
      hz2mel 0 = 0 := by
  refine ⟨fun f hf => ?_, fun m => ?_, fun f g hf hfg => ?_, fun m n hmn => ?_, ?_⟩
  · unfold mel2hz hz2mel
    rw [mul_div_cancel_left₀ _ (by norm_num : (2595 : ℝ) ≠ 0),
      Real.rpow_logb (by norm_num) (by norm_num) (by linarith)]
    ring
  · unfold mel2hz hz2mel
    rw [mul_div_cancel_left₀ _ (by norm_num : (700 : ℝ) ≠ 0), add_sub_cancel,
      Real.logb_rpow (by norm_num) (by norm_num)]
    ring
  · unfold hz2mel
    have : Real.logb 10 (1 + f / 700) < Real.logb 10 (1 + g / 700) :=
      Real.logb_lt_logb (by norm_num) (by linarith) (by linarith)
    linarith
  · unfold mel2hz
    have : (10 : ℝ) ^ (m / 2595) < (10 : ℝ) ^ (n / 2595) :=
      (Real.rpow_lt_rpow_left_iff (by norm_num)).2 (by linarith)
    linarith
  · unfold hz2mel
    simp

/-- Frequency vectors of a spectrum: increasing, starting at 0 or above, more than one entry. -/
def Frequencies (f : List ℝ) : Prop :=
  2 ≤ f.length ∧ 0 ≤ f.getD 0 0 ∧ ∀ i j, i < j → j < f.length → f.getD i 0 < f.getD j 0

/-- The range the user asks for. -/
noncomputable def wanted (f : List ℝ) : Option (ℝ × ℝ) → ℝ × ℝ
  | none => (f.getD 0 0, f.getD (f.length - 1) 0)
  | some (a, b) => (min a b, max a b)

/-- The range lies within 0 and the last frequency. -/
def Within (f : List ℝ) (range : Option (ℝ × ℝ)) : Prop :=
  0 ≤ (wanted f range).1 ∧ (wanted f range).2 ≤ f.getD (f.length - 1) 0

/-- `i` is the first bin nearest to the frequency `b`. -/
def Nearest (f : List ℝ) (b : ℝ) (i : ℕ) : Prop :=
  i < f.length ∧ (∀ j < f.length, |b - f.getD i 0| ≤ |b - f.getD j 0|) ∧
    ∀ j < i, |b - f.getD i 0| < |b - f.getD j 0|

theorem nearest_mono (f : List ℝ) (hf : Frequencies f) (b c : ℝ) (hbc : b ≤ c) (i j : ℕ)
    (hi : Nearest f b i) (hj : Nearest f c j) : i ≤ j := by
  by_contra h
  push Not at h
  have hlt := hf.2.2 j i h hi.1
  have h1 := hi.2.2 j h
  have h2 := hj.2.1 i hi.1
  rcases abs_cases (b - f.getD i 0) with ⟨e1, _⟩ | ⟨e1, _⟩ <;>
    rcases abs_cases (b - f.getD j 0) with ⟨e2, _⟩ | ⟨e2, _⟩ <;>
    rcases abs_cases (c - f.getD i 0) with ⟨e3, _⟩ | ⟨e3, _⟩ <;>
    rcases abs_cases (c - f.getD j 0) with ⟨e4, _⟩ | ⟨e4, _⟩ <;>
    rw [e1, e2] at h1 <;> rw [e3, e4] at h2 <;> linarith

theorem rangeHz_ok (f : List ℝ) (hf : 2 ≤ f.length) (range : Option (ℝ × ℝ))
    (h : Within f range) : rangeHz f range = .ok (wanted f range) := by
  unfold rangeHz
  rw [if_neg (by omega), if_neg (by omega)]
  cases range with
  | none => rfl
  | some ab =>
    obtain ⟨a, b⟩ := ab
    unfold Within wanted at h
    dsimp only at h ⊢
    rw [if_neg (not_not.2 h.2), if_neg (not_not.2 h.1)]
    rfl

theorem wanted_le (f : List ℝ) (hf : Frequencies f) (range : Option (ℝ × ℝ)) :
    (wanted f range).1 ≤ (wanted f range).2 := by
  cases range with
  | none => exact (hf.2.2 0 (f.length - 1) (by have := hf.1; omega) (by have := hf.1; omega)).le
  | some ab => exact min_le_max

theorem hz2mel_mono (a b : ℝ) (ha : 0 ≤ a) (h : a ≤ b) : hz2mel a ≤ hz2mel b := by
  rcases h.lt_or_eq with h | h
  · exact (C70_scale.2.2.1 a b (by linarith) h).le
  · rw [h]

theorem mel2hz_mono (a b : ℝ) (h : a ≤ b) : mel2hz a ≤ mel2hz b := by
  rcases h.lt_or_eq with h | h
  · exact (C70_scale.2.2.2.1 a b h).le
  · rw [h]

theorem center_mono (lo hi : ℝ) (h0 : 0 ≤ lo) (h : lo ≤ hi) (bands i j : ℕ) (hij : i ≤ j) :
    mel2hz (center lo hi bands i) ≤ mel2hz (center lo hi bands j) := by
  apply mel2hz_mono
  unfold center
  have h1 : 0 ≤ (hz2mel hi - hz2mel lo) / ((bands : ℝ) + 1) :=
    div_nonneg (by linarith [hz2mel_mono lo hi h0 h]) (by positivity)
  have h2 : (i : ℝ) ≤ j := by exact_mod_cast hij
  linarith [mul_le_mul_of_nonneg_right h2 h1]

/-- The height of the triangle over the corners `a ≤ b ≤ c` at the bin `k`: zero outside, rising
to 1 in `b`, falling to 0 in `c`. -/
def IsTriangle (a b c : ℕ) (row : ℕ → ℝ) : Prop :=
  (∀ k, k < a ∨ c ≤ k → row k = 0) ∧
    (∀ k, a ≤ k → k < b → row k * (b - a) = k - a) ∧
    ∀ k, b ≤ k → k < c → row k * (c - b) = c - k

theorem triangle_spec (a b c : ℕ) (hab : a ≤ b) (hbc : b ≤ c) :
    IsTriangle a b c (triangle a b c) := by
  refine ⟨fun k hk => ?_, fun k h1 h2 => ?_, fun k h1 h2 => ?_⟩ <;> unfold triangle
  · rw [if_neg (by omega), if_neg (by omega)]
  · rw [if_neg (by omega), if_pos ⟨h1, h2⟩, Nat.cast_sub h1, Nat.cast_sub hab]
    have : (a : ℝ) < b := by exact_mod_cast lt_of_le_of_lt h1 h2
    have : (b : ℝ) - a ≠ 0 := by linarith
    field_simp
  · rw [if_pos ⟨h1, h2⟩, Nat.cast_sub h1, Nat.cast_sub hbc]
    have : (b : ℝ) < c := by exact_mod_cast lt_of_le_of_lt h1 h2
    have : (c : ℝ) - b ≠ 0 := by linarith
    field_simp
    ring

/-- The filter bank exists for every frequency vector, range and number of bands.  The centre
frequencies are equidistant in mel and lie inside the range; the corners of the triangles are the
bins nearest to neighbouring centre frequencies, and these are ordered. -/
theorem C70_filters (f : List ℝ) (hf : Frequencies f) (range : Option (ℝ × ℝ))
    (hr : Within f range) (bands : ℕ) (normalize : Bool) :
    ∃ B, filterbank f range bands normalize = .ok B ∧ B.bands = bands ∧ B.bins = f.length ∧
      (∀ n, B.centers n = hz2mel (wanted f range).1
        + (n + 1) / (bands + 1) * (hz2mel (wanted f range).2 - hz2mel (wanted f range).1)) ∧
      ∃ corner : ℕ → ℕ, ∃ row : ℕ → ℕ → ℝ,
        (∀ i < bands + 2, Nearest f (mel2hz (hz2mel (wanted f range).1
          + i / (bands + 1) * (hz2mel (wanted f range).2 - hz2mel (wanted f range).1))) (corner i)) ∧
        (∀ i j, i ≤ j → j < bands + 2 → corner i ≤ corner j) ∧
        (∀ n < bands, IsTriangle (corner n) (corner (n + 1)) (corner (n + 2)) (row n)) ∧
        (normalize = false → ∀ n < bands, ∀ k < f.length, B.val n k = some (row n k)) ∧
        (normalize = true → ∀ n < bands, ∀ k < f.length,
          B.val n k = normalizeRow f.length (row n) k) := by
  have hcenter : ∀ i : ℕ, center (wanted f range).1 (wanted f range).2 bands i =
      hz2mel (wanted f range).1
        + i / (bands + 1) * (hz2mel (wanted f range).2 - hz2mel (wanted f range).1) := by
    intro i
    unfold center
    ring
  have hne : f ≠ [] := by
    intro h
    rw [h] at hf
    exact absurd hf.1 (by simp)
  obtain ⟨inds, hinds, hlen, hall⟩ := Helpers.C45_nearest
    ((List.range (bands + 2)).map fun i =>
      mel2hz (center (wanted f range).1 (wanted f range).2 bands i)) f hne
  have hq : ∀ q < bands + 2, ((List.range (bands + 2)).map fun i =>
      mel2hz (center (wanted f range).1 (wanted f range).2 bands i)).getD q 0 =
      mel2hz (center (wanted f range).1 (wanted f range).2 bands q) := by
    intro q hq
    rw [List.getD_eq_getElem _ _ (by simpa using hq)]
    simp
  have hnear : ∀ i < bands + 2, Nearest f
      (mel2hz (center (wanted f range).1 (wanted f range).2 bands i)) (inds.getD i 0) := by
    intro i hi
    have := hall i (by simpa using hi)
    rw [hq i hi] at this
    exact this
  have hmono : ∀ i j, i ≤ j → j < bands + 2 → inds.getD i 0 ≤ inds.getD j 0 := by
    intro i j hij hj
    exact nearest_mono f hf _ _ (center_mono _ _ hr.1 (wanted_le f hf range) bands i j hij) _ _
      (hnear i (by omega)) (hnear j hj)
  have hany : ¬ ((List.range bands).any fun n => decide (inds.getD (n + 1) 0 < inds.getD n 0 ∨
      inds.getD (n + 2) 0 < inds.getD (n + 1) 0)) = true := by
    rw [List.any_eq_true]
    rintro ⟨n, hn, h⟩
    have hn' := List.mem_range.1 hn
    have h1 := hmono n (n + 1) (by omega) (by omega)
    have h2 := hmono (n + 1) (n + 2) (by omega) (by omega)
    have := of_decide_eq_true h
    omega
  have hB : filterbank f range bands normalize = .ok ⟨bands, f.length,
      fun n k =>
        let row := triangle (inds.getD n 0) (inds.getD (n + 1) 0) (inds.getD (n + 2) 0)
        if normalize then normalizeRow f.length row k else some (row k),
      fun n => center (wanted f range).1 (wanted f range).2 bands (n + 1)⟩ := by
    unfold filterbank
    rw [rangeHz_ok f hf.1 range hr]
    dsimp only
    rw [hinds]
    dsimp only
    rw [if_neg hany]
  refine ⟨_, hB, rfl, rfl, fun n => ?_, fun i => inds.getD i 0,
    fun n => triangle (inds.getD n 0) (inds.getD (n + 1) 0) (inds.getD (n + 2) 0),
    fun i hi => ?_, hmono, fun n hn => triangle_spec _ _ _ (hmono _ _ (by omega) (by omega))
      (hmono _ _ (by omega) (by omega)), fun h n _ k _ => ?_, fun h n _ k _ => ?_⟩
  · dsimp only
    rw [hcenter]
    push_cast
    rfl
  · rw [← hcenter]
    exact hnear i hi
  · subst h
    rfl
  · subst h
    rfl

/-- The heights lie between 0 and 1; the largest height 1 is at the centre frequency. -/
theorem C70_heights (a b c : ℕ) (row : ℕ → ℝ)
    (h : IsTriangle a b c row) :
    (∀ k, 0 ≤ row k ∧ row k ≤ 1) ∧ (b < c → row b = 1) := by
  obtain ⟨h0, h1, h2⟩ := h
  refine ⟨fun k => ?_, fun hbc' => ?_⟩
  · by_cases hk : k < a ∨ c ≤ k
    · rw [h0 k hk]
      norm_num
    · push Not at hk
      by_cases hb : k < b
      · have e := h1 k hk.1 hb
        have g1 : (a : ℝ) ≤ k := by exact_mod_cast hk.1
        have g2 : (k : ℝ) < b := by exact_mod_cast hb
        constructor
        · by_contra hneg
          nlinarith
        · by_contra hneg
          nlinarith
      · have e := h2 k (by omega) hk.2
        have g1 : (b : ℝ) ≤ k := by exact_mod_cast (by omega : b ≤ k)
        have g2 : (k : ℝ) < c := by exact_mod_cast hk.2
        constructor
        · by_contra hneg
          nlinarith
        · by_contra hneg
          nlinarith
  · have e := h2 b le_rfl hbc'
    have g : (b : ℝ) < c := by exact_mod_cast hbc'
    have : (c : ℝ) - b ≠ 0 := by linarith
    exact mul_right_cancel₀ this (by rw [e, one_mul])

/-- Between the first and the last centre frequency the heights of all bands add up to one. -/
theorem C70_partition_of_unity (bands : ℕ) (corner : ℕ → ℕ) (row : ℕ → ℕ → ℝ)
    (hmono : ∀ i j, i ≤ j → j < bands + 2 → corner i ≤ corner j)
    (h : ∀ n < bands, IsTriangle (corner n) (corner (n + 1)) (corner (n + 2)) (row n))
    (k : ℕ) (hk1 : corner 1 ≤ k) (hk2 : k < corner bands) :
    ∑ n ∈ range bands, row n k = 1 := by
  classical
  -- the corner left of `k`
  obtain ⟨m, hm1, hm2, hm3, hm4⟩ : ∃ m, 1 ≤ m ∧ m < bands ∧ corner m ≤ k ∧ k < corner (m + 1) := by
    have hb : 1 ≤ bands := by
      by_contra h0
      have : bands = 0 := by omega
      subst this
      have := hmono 0 1 (by omega) (by omega)
      omega
    have hex : ∃ i, k < corner i ∧ 1 ≤ i := ⟨bands, hk2, hb⟩
    have hs := Nat.find_spec hex
    have hle : Nat.find hex ≤ bands := Nat.find_min' hex ⟨hk2, hb⟩
    have h1 : Nat.find hex ≠ 1 := by
      intro he
      rw [he] at hs
      omega
    have hmin := Nat.find_min hex (m := Nat.find hex - 1) (by omega)
    refine ⟨Nat.find hex - 1, by omega, by omega, ?_, ?_⟩
    · by_contra hc
      exact hmin ⟨by omega, by omega⟩
    · rw [Nat.sub_add_cancel (by omega)]
      exact hs.1
  obtain ⟨p, rfl⟩ : ∃ p, m = p + 1 := ⟨m - 1, by omega⟩
  have hzero : ∀ n ∈ range bands, n ∉ ({p, p + 1} : Finset ℕ) → row n k = 0 := by
    intro n hn hne
    have hn' := Finset.mem_range.1 hn
    simp only [Finset.mem_insert, Finset.mem_singleton, not_or] at hne
    apply (h n hn').1
    rcases Nat.lt_or_ge n p with hlt | hge
    · right
      exact le_trans (hmono (n + 2) (p + 1) (by omega) (by omega)) hm3
    · left
      exact lt_of_lt_of_le hm4 (hmono (p + 1 + 1) n (by omega) (by omega))
  rw [← Finset.sum_subset (s₁ := ({p, p + 1} : Finset ℕ)) _ hzero, Finset.sum_pair (by omega)]
  · have e1 := (h p (by omega)).2.2 k hm3 hm4
    have e2 := (h (p + 1) hm2).2.1 k hm3 hm4
    have g : (corner (p + 1) : ℝ) < corner (p + 1 + 1) := by
      exact_mod_cast lt_of_le_of_lt hm3 hm4
    have g' : (corner (p + 1 + 1) : ℝ) - corner (p + 1) ≠ 0 := by linarith
    apply mul_right_cancel₀ g'
    have e1' : row p k * ((corner (p + 1 + 1) : ℝ) - corner (p + 1)) = corner (p + 1 + 1) - k := e1
    linarith
  · intro n hn
    simp only [Finset.mem_insert, Finset.mem_singleton] at hn
    rw [Finset.mem_range]
    omega

/-- A band is resolved if its triangle contains a bin with a height above zero. -/
def Resolved (a b c : ℕ) : Prop := a + 1 < b ∨ b < c

theorem sum_pos (a b c L : ℕ) (hbc : b ≤ c) (hab : a ≤ b) (hL : c < L) (row : ℕ → ℝ)
    (h : IsTriangle a b c row) : (Resolved a b c → 0 < ∑ k ∈ range L, row k) ∧
      (¬ Resolved a b c → ∀ k, row k = 0) := by
  refine ⟨fun hr => ?_, fun hr k => ?_⟩
  · refine Finset.sum_pos' (fun k _ => ((C70_heights a b c row h).1 k).1) ?_
    rcases hr with hr | hr
    · refine ⟨a + 1, Finset.mem_range.2 (by omega), ?_⟩
      have e := h.2.1 (a + 1) (by omega) hr
      push_cast at e
      have g : (a : ℝ) + 1 < b := by exact_mod_cast hr
      by_contra hneg
      nlinarith
    · refine ⟨b, Finset.mem_range.2 (by omega), ?_⟩
      rw [(C70_heights a b c row h).2 hr]
      exact one_pos
  · unfold Resolved at hr
    push Not at hr
    by_cases hk : k < a ∨ c ≤ k
    · exact h.1 k hk
    · push Not at hk
      have e := h.2.1 k hk.1 (by omega)
      have hka : k = a := by omega
      have hb : b = a + 1 := by omega
      rw [hka, hb] at e
      push_cast at e
      rw [hka]
      linarith

/-- After normalisation the weights of every resolved band are not negative and add up to one; a
band that is not resolved is nan everywhere. -/
theorem C70_normalized_partial (a b c L : ℕ) (hab : a ≤ b) (hbc : b ≤ c) (hL : c < L)
    (row : ℕ → ℝ) (h : IsTriangle a b c row) :
    (Resolved a b c → ∃ w : ℕ → ℝ, (∀ k, normalizeRow L row k = some (w k) ∧ 0 ≤ w k ∧
        w k * ∑ i ∈ range L, row i = row k) ∧ ∑ k ∈ range L, w k = 1) ∧
      (¬ Resolved a b c → ∀ k, normalizeRow L row k = none) := by
  obtain ⟨h1, h2⟩ := sum_pos a b c L hbc hab hL row h
  refine ⟨fun hr => ?_, fun hr k => ?_⟩
  · have hpos := h1 hr
    refine ⟨fun k => row k / ∑ i ∈ range L, row i, fun k => ⟨?_, ?_, ?_⟩, ?_⟩
    · unfold normalizeRow
      rw [if_neg hpos.ne']
    · exact div_nonneg ((C70_heights a b c row h).1 k).1 hpos.le
    · exact div_mul_cancel₀ _ hpos.ne'
    · rw [← Finset.sum_div, div_self hpos.ne']
  · unfold normalizeRow
    rw [if_pos]
    exact Finset.sum_eq_zero fun i _ => h2 hr i

/-- With too many bands for the resolution, some band is nan for every frequency: whenever there
are more than twice as many corners as bins. -/
theorem C70_too_many_bands (f : List ℝ) (hf : Frequencies f) (range : Option (ℝ × ℝ))
    (hr : Within f range) (bands : ℕ) (hb : 2 * f.length < bands + 2) :
    ∃ B, filterbank f range bands true = .ok B ∧ ∃ n < bands, ∀ k < f.length, B.val n k = none := by
  obtain ⟨B, hB, -, -, -, corner, row, hnear, hmono, htri, -, hval⟩ :=
    C70_filters f hf range hr bands true
  refine ⟨B, hB, ?_⟩
  have hex : ∃ n < bands, corner n = corner (n + 2) := by
    by_contra hno
    push Not at hno
    have hstep : ∀ i, 2 * i < bands + 2 → i ≤ corner (2 * i) := by
      intro i
      induction i with
      | zero => intro _; exact Nat.zero_le _
      | succ i ih =>
        intro hi
        have h1 := ih (by omega)
        have h2 := hmono (2 * i) (2 * i + 2) (by omega) (by omega)
        have h3 := hno (2 * i) (by omega)
        have : 2 * (i + 1) = 2 * i + 2 := by ring
        rw [this]
        omega
    have := hstep f.length hb
    have := (hnear (2 * f.length) hb).1
    omega
  obtain ⟨n, hn, he⟩ := hex
  have h1 := hmono n (n + 1) (by omega) (by omega)
  have h2 := hmono (n + 1) (n + 2) (by omega) (by omega)
  refine ⟨n, hn, fun k hk => ?_⟩
  rw [hval rfl n hn k hk]
  refine (C70_normalized_partial _ _ _ f.length h1 h2 (hnear (n + 2) (by omega)).1 (row n)
    (htri n hn)).2 ?_ k
  unfold Resolved
  omega

/-- Ranges that leave the available frequencies and frequency vectors without extent are
rejected. -/
theorem C70_rejects (f : List ℝ) (bands : ℕ) (normalize : Bool) :
    (∀ a b, 2 ≤ f.length → ¬ Within f (some (a, b)) →
      filterbank f (some (a, b)) bands normalize = .error .assertionError) ∧
      (∀ range, f.length = 1 → filterbank f range bands normalize = .error .assertionError) := by
  constructor
  · intro a b hl hw
    have : rangeHz f (some (a, b)) = .error .assertionError := by
      unfold rangeHz
      rw [if_neg (by omega), if_neg (by omega)]
      unfold Within wanted at hw
      dsimp only at hw ⊢
      by_cases h1 : max a b ≤ f.getD (f.length - 1) 0
      · rw [if_neg (not_not.2 h1), if_pos (fun h2 => hw ⟨h2, h1⟩)]
      · rw [if_pos h1]
    unfold filterbank
    rw [this]
  · intro range hl
    unfold filterbank rangeHz
    rw [if_pos hl]

/-- The hypotheses are met by a frequency vector of three bins. -/
example : Frequencies [0, 700, 1400] ∧ Within [0, 700, 1400] none ∧
    Within [0, 700, 1400] (some (1000, 200)) := by
  refine ⟨⟨by simp, by simp, ?_⟩, ⟨by simp [wanted], by simp [wanted]⟩,
    ⟨by simp [wanted], by simp [wanted]; norm_num⟩⟩
  intro i j hij hj
  have hj' : j < 3 := by simpa using hj
  interval_cases j <;> interval_cases i <;> norm_num at hij ⊢

end Verif.Props.C70
