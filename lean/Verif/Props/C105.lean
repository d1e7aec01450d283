import Verif.Lemmas.FrequencyGrids

/-!
# C105: logarithmic, fractional octave and ERB frequency grids
-/

namespace Verif.FrequencyGrids

/-- The logarithmic vector starts at the lower limit, has `n` steps in every octave, stays below the
upper limit, and the next step would reach it. -/
theorem C105_log_vector (f0 f1 : ℝ) (n : ℕ) (h0 : 0 < f0) (h1 : f0 < f1) (hn : 0 < n) :
    ∃ g, logVector f0 f1 n = .ok g ∧ 0 < g.length ∧ g.getD 0 0 = f0 ∧
      (∀ k, k + 1 < g.length → g.getD (k + 1) 0 = g.getD k 0 * 2 ^ (1 / (n : ℝ))) ∧
      (∀ f ∈ g, f0 ≤ f ∧ f < f1) ∧ f1 ≤ g.getD (g.length - 1) 0 * 2 ^ (1 / (n : ℝ)) := by
  have hn' : (0 : ℝ) < n := by exact_mod_cast hn
  have hr : 1 < f1 / f0 := by rw [lt_div_iff₀ h0]; linarith
  have hl : 0 < Real.logb 2 (f1 / f0) := Real.logb_pos (by norm_num) hr
  have hx : 0 < Real.logb 2 (f1 / f0) / (1 / (n : ℝ)) := by positivity
  unfold logVector
  rw [if_neg (not_not.mpr h0), if_neg (by omega)]
  dsimp only
  generalize hL : ⌈Real.logb 2 (f1 / f0) / (1 / (n : ℝ))⌉₊ = L
  have hLpos : 0 < L := by rw [← hL]; exact Nat.ceil_pos.mpr hx
  have hge : Real.logb 2 (f1 / f0) ≤ L * (1 / (n : ℝ)) := by
    have := Nat.le_ceil (Real.logb 2 (f1 / f0) / (1 / (n : ℝ)))
    rw [hL, div_le_iff₀ (by positivity)] at this
    exact this
  have hlt : ∀ k < L, (k : ℝ) * (1 / n) < Real.logb 2 (f1 / f0) := by
    intro k hk
    rw [← hL] at hk
    have := Nat.lt_ceil.mp hk
    rwa [lt_div_iff₀ (by positivity)] at this
  have hf1 : f1 = f0 * 2 ^ Real.logb 2 (f1 / f0) := by
    rw [Real.rpow_logb (by norm_num) (by norm_num) (by positivity)]
    field_simp
  have hget : ∀ k < L, ((List.range L).map fun (k : ℕ) => f0 * (2 : ℝ) ^ ((k : ℝ) * (1 / n))).getD k 0 =
      f0 * 2 ^ ((k : ℝ) * (1 / n)) := by
    intro k hk
    rw [List.getD_eq_getElem _ _ (by simpa using hk), List.getElem_map, List.getElem_range]
  refine ⟨_, rfl, by simpa using hLpos, ?_, ?_, ?_, ?_⟩
  · rw [hget 0 hLpos]; simp
  · intro k hk
    rw [List.length_map, List.length_range] at hk
    rw [hget _ hk, hget k (by omega), mul_assoc, ← Real.rpow_add (by norm_num)]
    congr 2
    push_cast
    ring
  · intro f hf
    obtain ⟨k, hk, rfl⟩ := List.mem_map.mp hf
    rw [List.mem_range] at hk
    constructor
    · have : (1 : ℝ) ≤ 2 ^ ((k : ℝ) * (1 / n)) :=
        Real.one_le_rpow (by norm_num) (by positivity)
      nlinarith
    · conv_rhs => rw [hf1]
      exact mul_lt_mul_of_pos_left
        (Real.rpow_lt_rpow_of_exponent_lt (by norm_num) (hlt k hk)) h0
  · rw [List.length_map, List.length_range, hget _ (by omega), mul_assoc,
      ← Real.rpow_add (by norm_num)]
    conv_lhs => rw [hf1]
    apply mul_le_mul_of_nonneg_left _ h0.le
    apply Real.rpow_le_rpow_of_exponent_le (by norm_num)
    rw [Nat.cast_sub (by omega), Nat.cast_one]
    linarith

/-- Lower limits that are not positive are refused. -/
theorem C105_log_vector_refused (f0 f1 : ℝ) (n : ℕ) (h : f0 ≤ 0) :
    logVector f0 f1 n = .error .assertionError := by
  unfold logVector
  rw [if_pos (not_lt.mpr h)]

/-- For fractions other than 1 and 3, the centre frequencies are exactly the frequencies
1000 · 2^(k/b) from the one nearest to the lower limit to the one nearest to the upper limit: all of
them lie within half a band of the limits, and every frequency in the range is at most half a band
away from one of them. -/
theorem C105_exact_centres (b : ℕ) (lo hi : ℝ) (hb : 0 < b) (h1 : b ≠ 1) (h3 : b ≠ 3) (h0 : 0 < lo)
    (h : lo ≤ hi) :
    ∃ g, octaveFrequencies b [lo, hi] = .ok ([], g) ∧
      (∀ f ∈ g, (∃ k : ℤ, f = 1000 * 2 ^ ((k : ℝ) / b)) ∧ lo * 2 ^ (-1 / (2 * (b : ℝ))) ≤ f ∧
        f ≤ hi * 2 ^ (1 / (2 * (b : ℝ)))) ∧
      ∀ q, lo ≤ q → q ≤ hi → ∃ f ∈ g, f * 2 ^ (-1 / (2 * (b : ℝ))) ≤ q ∧
        q ≤ f * 2 ^ (1 / (2 * (b : ℝ))) := by
  have hb' : (0 : ℝ) < b := by exact_mod_cast hb
  have hhi : 0 < hi := by linarith
  unfold octaveFrequencies
  dsimp only
  rw [if_neg (not_lt.mpr h), if_neg (by omega)]
  refine ⟨_, rfl, ?_, ?_⟩
  all_goals unfold exactCentres; dsimp only
  all_goals
    have hmax := around_bounds (b * Real.logb 2 (hi / 1000))
    have hmin := around_bounds (b * Real.logb 2 (1000 / lo))
    have hord : -around (b * Real.logb 2 (1000 / lo)) ≤ around (b * Real.logb 2 (hi / 1000)) := by
      apply around_order
      rw [← mul_neg, ← Real.logb_inv, inv_div]
      exact mul_le_mul_of_nonneg_left (Real.logb_le_logb_of_le (by norm_num) (by positivity)
        (div_le_div_of_nonneg_right h (by norm_num))) hb'.le
    generalize around (b * Real.logb 2 (hi / 1000)) = nmax at hmax hord ⊢
    generalize around (b * Real.logb 2 (1000 / lo)) = nmin at hmin hord ⊢
    rw [abs_le] at hmax hmin
    have elo : lo = 1000 * 2 ^ (-Real.logb 2 (1000 / lo)) := by
      rw [Real.rpow_neg (by norm_num), Real.rpow_logb (by norm_num) (by norm_num) (by positivity)]
      field_simp
    have ehi : hi = 1000 * 2 ^ (Real.logb 2 (hi / 1000)) := by
      rw [Real.rpow_logb (by norm_num) (by norm_num) (by positivity)]
      field_simp
  · intro f hf
    obtain ⟨k, hk, rfl⟩ := List.mem_map.mp hf
    obtain ⟨k1, k2⟩ := mem_arange.mp hk
    have k1' : -(nmin : ℝ) ≤ k := by exact_mod_cast k1
    have k2' : (k : ℝ) ≤ nmax := by exact_mod_cast Int.lt_add_one_iff.mp k2
    refine ⟨⟨k, rfl⟩, ?_, ?_⟩
    · rw [elo, mul_assoc, ← Real.rpow_add (by norm_num)]
      apply mul_le_mul_of_nonneg_left _ (by norm_num)
      apply Real.rpow_le_rpow_of_exponent_le (by norm_num)
      rw [le_div_iff₀ hb']
      have : (-1 / (2 * (b : ℝ))) * b = -1 / 2 := by field_simp
      nlinarith
    · rw [ehi, mul_assoc, ← Real.rpow_add (by norm_num)]
      apply mul_le_mul_of_nonneg_left _ (by norm_num)
      apply Real.rpow_le_rpow_of_exponent_le (by norm_num)
      rw [div_le_iff₀ hb']
      have : (1 / (2 * (b : ℝ))) * b = 1 / 2 := by field_simp
      nlinarith
  · intro q hq1 hq2
    have hq : 0 < q := by linarith
    have eq' : q = 1000 * 2 ^ (Real.logb 2 (q / 1000)) := by
      rw [Real.rpow_logb (by norm_num) (by norm_num) (by positivity)]
      field_simp
    have l1 : -Real.logb 2 (1000 / lo) ≤ Real.logb 2 (q / 1000) := by
      rw [← Real.logb_inv, inv_div]
      exact Real.logb_le_logb_of_le (by norm_num) (by positivity)
        (div_le_div_of_nonneg_right hq1 (by norm_num))
    have l2 : Real.logb 2 (q / 1000) ≤ Real.logb 2 (hi / 1000) :=
      Real.logb_le_logb_of_le (by norm_num) (by positivity)
        (div_le_div_of_nonneg_right hq2 (by norm_num))
    -- the nearest band number, moved into the range of band numbers
    obtain ⟨k, hk1, hk2, hk3⟩ : ∃ k : ℤ, -nmin ≤ k ∧ k ≤ nmax ∧
        |b * Real.logb 2 (q / 1000) - k| ≤ 1 / 2 := by
      have hr := around_bounds (b * Real.logb 2 (q / 1000))
      generalize around (b * Real.logb 2 (q / 1000)) = r at hr
      rw [abs_le] at hr
      have m1 := mul_le_mul_of_nonneg_left l1 hb'.le
      have m2 := mul_le_mul_of_nonneg_left l2 hb'.le
      by_cases c1 : -nmin ≤ r
      · by_cases c2 : r ≤ nmax
        · exact ⟨r, c1, c2, by rw [abs_le]; exact hr⟩
        · have c2' : (nmax : ℝ) + 1 ≤ r := by exact_mod_cast (by omega : nmax + 1 ≤ r)
          refine ⟨nmax, hord, le_rfl, ?_⟩
          · rw [abs_le]; constructor <;> linarith
      · have c1' : (r : ℝ) + 1 ≤ -nmin := by exact_mod_cast (by omega : r + 1 ≤ -nmin)
        refine ⟨-nmin, le_rfl, hord, ?_⟩
        · push_cast
          rw [abs_le]; constructor <;> linarith
    rw [abs_le] at hk3
    refine ⟨_, List.mem_map.mpr ⟨k, mem_arange.mpr ⟨hk1, by omega⟩, rfl⟩, ?_, ?_⟩
    · conv_rhs => rw [eq']
      rw [mul_assoc, ← Real.rpow_add (by norm_num)]
      apply mul_le_mul_of_nonneg_left _ (by norm_num)
      apply Real.rpow_le_rpow_of_exponent_le (by norm_num)
      rw [show (k : ℝ) / b + -1 / (2 * b) = (k - 1 / 2) / b by field_simp; ring, div_le_iff₀ hb']
      linarith
    · conv_lhs => rw [eq']
      rw [mul_assoc, ← Real.rpow_add (by norm_num)]
      apply mul_le_mul_of_nonneg_left _ (by norm_num)
      apply Real.rpow_le_rpow_of_exponent_le (by norm_num)
      rw [show (k : ℝ) / b + 1 / (2 * b) = (k + 1 / 2) / b by field_simp, le_div_iff₀ hb']
      linarith

/-- Ranges that are no pair or not in order are refused. -/
theorem C105_octaves_refused (b : ℕ) (r : List ℝ)
    (h : r.length ≠ 2 ∨ r.getD 1 0 < r.getD 0 0) :
    octaveFrequencies b r = .error .valueError := by
  unfold octaveFrequencies
  split
  · rename_i lo hi
    rcases h with h | h
    · exact absurd rfl h
    · rw [if_pos (by simpa using h)]
  · rfl

/-- Octaves: the exact frequencies of the ten nominal ones have the band numbers -5, ..., 4. -/
theorem C105_octaves :
    (nominal 1).map (exactOf 1) = (arange (-5) 5).map fun (k : ℤ) => 1000 * octaveRatio ^ (k : ℝ) := by
  have e : ∀ f : ℝ, ∀ k : ℤ, 0 < f →
      (10 : ℝ) ^ (3 * (2 * k - 1) : ℤ) < (f / 1000) ^ (20 * 1 : ℕ) →
      (f / 1000) ^ (20 * 1 : ℕ) < (10 : ℝ) ^ (3 * (2 * k + 1) : ℤ) →
      exactOf 1 f = 1000 * octaveRatio ^ (k : ℝ) := by
    intro f k h0 h1 h2
    unfold exactOf
    rw [band_of one_pos h0 h1 h2]
    simp
  have ha : arange (-5) 5 = [-5, -4, -3, -2, -1, 0, 1, 2, 3, 4] := by decide
  unfold nominal
  rw [if_pos rfl, ha]
  simp only [List.map_cons, List.map_nil]
  rw [e 31.5 (-5) (by norm_num) (by norm_num) (by norm_num),
    e 63 (-4) (by norm_num) (by norm_num) (by norm_num),
    e 125 (-3) (by norm_num) (by norm_num) (by norm_num),
    e 250 (-2) (by norm_num) (by norm_num) (by norm_num),
    e 500 (-1) (by norm_num) (by norm_num) (by norm_num),
    e 1000 0 (by norm_num) (by norm_num) (by norm_num),
    e 2000 1 (by norm_num) (by norm_num) (by norm_num),
    e 4000 2 (by norm_num) (by norm_num) (by norm_num),
    e 8000 3 (by norm_num) (by norm_num) (by norm_num),
    e 16000 4 (by norm_num) (by norm_num) (by norm_num)]

/-- Third octaves: the band numbers -16, ..., 13. -/
theorem C105_third_octaves :
    (nominal 3).map (exactOf 3) =
      (arange (-16) 14).map fun (k : ℤ) => 1000 * octaveRatio ^ ((k : ℝ) / 3) := by
  have e : ∀ f : ℝ, ∀ k : ℤ, 0 < f →
      (10 : ℝ) ^ (3 * (2 * k - 1) : ℤ) < (f / 1000) ^ (20 * 3 : ℕ) →
      (f / 1000) ^ (20 * 3 : ℕ) < (10 : ℝ) ^ (3 * (2 * k + 1) : ℤ) →
      exactOf 3 f = 1000 * octaveRatio ^ ((k : ℝ) / 3) := by
    intro f k h0 h1 h2
    unfold exactOf
    rw [band_of (by norm_num) h0 h1 h2]
    norm_num
  have ha : arange (-16) 14 = [-16, -15, -14, -13, -12, -11, -10, -9, -8, -7, -6, -5, -4, -3, -2, -1,
      0, 1, 2, 3, 4, 5, 6, 7, 8, 9, 10, 11, 12, 13] := by decide
  unfold nominal
  rw [if_neg (by norm_num), ha]
  simp only [List.map_cons, List.map_nil]
  rw [e 25 (-16) (by norm_num) (by norm_num) (by norm_num),
    e 31.5 (-15) (by norm_num) (by norm_num) (by norm_num),
    e 40 (-14) (by norm_num) (by norm_num) (by norm_num),
    e 50 (-13) (by norm_num) (by norm_num) (by norm_num),
    e 63 (-12) (by norm_num) (by norm_num) (by norm_num),
    e 80 (-11) (by norm_num) (by norm_num) (by norm_num),
    e 100 (-10) (by norm_num) (by norm_num) (by norm_num),
    e 125 (-9) (by norm_num) (by norm_num) (by norm_num),
    e 160 (-8) (by norm_num) (by norm_num) (by norm_num),
    e 200 (-7) (by norm_num) (by norm_num) (by norm_num),
    e 250 (-6) (by norm_num) (by norm_num) (by norm_num),
    e 315 (-5) (by norm_num) (by norm_num) (by norm_num),
    e 400 (-4) (by norm_num) (by norm_num) (by norm_num),
    e 500 (-3) (by norm_num) (by norm_num) (by norm_num),
    e 630 (-2) (by norm_num) (by norm_num) (by norm_num),
    e 800 (-1) (by norm_num) (by norm_num) (by norm_num),
    e 1000 0 (by norm_num) (by norm_num) (by norm_num),
    e 1250 1 (by norm_num) (by norm_num) (by norm_num),
    e 1600 2 (by norm_num) (by norm_num) (by norm_num),
    e 2000 3 (by norm_num) (by norm_num) (by norm_num),
    e 2500 4 (by norm_num) (by norm_num) (by norm_num),
    e 3150 5 (by norm_num) (by norm_num) (by norm_num),
    e 4000 6 (by norm_num) (by norm_num) (by norm_num),
    e 5000 7 (by norm_num) (by norm_num) (by norm_num),
    e 6300 8 (by norm_num) (by norm_num) (by norm_num),
    e 8000 9 (by norm_num) (by norm_num) (by norm_num),
    e 10000 10 (by norm_num) (by norm_num) (by norm_num),
    e 12500 11 (by norm_num) (by norm_num) (by norm_num),
    e 16000 12 (by norm_num) (by norm_num) (by norm_num),
    e 20000 13 (by norm_num) (by norm_num) (by norm_num)]

/-- Octaves and third octaves: exactly the nominal frequencies in the range (limits included) are
returned, each with its exact frequency. -/
theorem C105_nominal (b : ℕ) (lo hi : ℝ) (hb : b = 1 ∨ b = 3) (h : lo ≤ hi) :
    ∃ m, octaveFrequencies b [lo, hi] = .ok (m, m.map (exactOf b)) ∧ m.Sublist (nominal b) ∧
      ∀ f, f ∈ m ↔ f ∈ nominal b ∧ lo ≤ f ∧ f ≤ hi := by
  unfold octaveFrequencies
  dsimp only
  rw [if_neg (not_lt.mpr h), if_pos hb]
  refine ⟨_, rfl, List.filter_sublist, fun f => ?_⟩
  rw [List.mem_filter]
  simp

/-- Neighbouring bands of octaves and third octaves have a common limit. -/
theorem C105_bands_touch (b : ℕ) (k : ℤ) (hb : 0 < b) :
    upperEdge b (1000 * octaveRatio ^ ((k : ℝ) / b)) =
      lowerEdge b (1000 * octaveRatio ^ (((k + 1 : ℤ) : ℝ) / b)) := by
  have hb' : (b : ℝ) ≠ 0 := by exact_mod_cast hb.ne'
  unfold upperEdge lowerEdge
  rw [mul_assoc, mul_assoc, ← Real.rpow_add octaveRatio_pos, ← Real.rpow_add octaveRatio_pos]
  congr 2
  push_cast
  field_simp
  ring

/-- With other numbers of fractions, there is a gap between any two neighbouring bands: the centres
use the ratio 2 and the limits the ratio 10^(3/10). -/
theorem C105_gap_between_other_bands (b : ℕ) (k : ℤ) (hb : 0 < b) :
    upperEdge b (1000 * 2 ^ ((k : ℝ) / b)) < lowerEdge b (1000 * 2 ^ (((k + 1 : ℤ) : ℝ) / b)) := by
  have hb' : (0 : ℝ) < b := by exact_mod_cast hb
  unfold upperEdge lowerEdge
  have e : (2 : ℝ) ^ (((k + 1 : ℤ) : ℝ) / b) = 2 ^ ((k : ℝ) / b) * 2 ^ (1 / (b : ℝ)) := by
    rw [← Real.rpow_add (by norm_num)]
    congr 1
    push_cast
    ring
  have e2 : octaveRatio ^ (1 / 2 / (b : ℝ)) =
      octaveRatio ^ (1 / (b : ℝ)) * octaveRatio ^ (-1 / 2 / (b : ℝ)) := by
    rw [← Real.rpow_add octaveRatio_pos]
    congr 1
    field_simp
    ring
  have h := Real.rpow_lt_rpow octaveRatio_pos.le octaveRatio_lt_two (by positivity : 0 < 1 / (b : ℝ))
  have p1 : (0 : ℝ) < 2 ^ ((k : ℝ) / b) := Real.rpow_pos_of_pos (by norm_num) _
  have p2 := Real.rpow_pos_of_pos octaveRatio_pos (-1 / 2 / (b : ℝ))
  rw [e, e2]
  have := mul_lt_mul_of_pos_right h (mul_pos (mul_pos (by norm_num : (0 : ℝ) < 1000) p1) p2)
  nlinarith

/-- The ERB frequencies are exactly the frequencies in the range which lie a whole number of steps
away from the reference on the ERB scale; they are in ascending order. -/
theorem C105_erb (a b resolution reference : ℝ) (hr : 0 < resolution) :
    ∃ g, erbFrequencies [a, b] resolution reference = .ok g ∧
      (∀ f, f ∈ g ↔ (∃ k : ℤ, toErb f = toErb reference + k * resolution) ∧
        min a b ≤ f ∧ f ≤ max a b) ∧
      ∀ i j, i < j → j < g.length → g.getD i 0 < g.getD j 0 := by
  unfold erbFrequencies
  dsimp only
  rw [if_neg (not_le.mpr hr)]
  have e : (if b < a then (b, a) else (a, b)) = (min a b, max a b) := by
    split_ifs with h
    · rw [min_eq_right h.le, max_eq_left h.le]
    · rw [not_lt] at h
      rw [min_eq_left h, max_eq_right h]
  rw [e]
  dsimp only
  have hmono : StrictMono fromErb := by
    intro x y h
    rw [← toErb_strictMono.lt_iff_lt, toErb_fromErb, toErb_fromErb]
    exact h
  refine ⟨_, rfl, fun f => ?_, ?_⟩
  · rw [List.mem_map]
    have lim : ∀ k : ℤ, k ∈ arange (-⌊(toErb reference - toErb (min a b)) / resolution⌋)
        (⌊(toErb (max a b) - toErb reference) / resolution⌋ + 1) ↔
        toErb (min a b) ≤ k * resolution + toErb reference ∧
        k * resolution + toErb reference ≤ toErb (max a b) := by
      intro k
      rw [mem_arange, Int.lt_add_one_iff, Int.le_floor, le_div_iff₀ hr,
        show (-⌊(toErb reference - toErb (min a b)) / resolution⌋ ≤ k) ↔
          (-k ≤ ⌊(toErb reference - toErb (min a b)) / resolution⌋) by omega, Int.le_floor,
        le_div_iff₀ hr]
      push_cast
      constructor <;> rintro ⟨h1, h2⟩ <;> constructor <;> linarith
    constructor
    · rintro ⟨k, hk, rfl⟩
      have := (lim k).mp hk
      refine ⟨⟨k, by rw [toErb_fromErb]; ring⟩, ?_, ?_⟩
      · rw [← toErb_strictMono.le_iff_le, toErb_fromErb]; exact this.1
      · rw [← toErb_strictMono.le_iff_le, toErb_fromErb]; exact this.2
    · rintro ⟨⟨k, hk⟩, h1, h2⟩
      have e : k * resolution + toErb reference = toErb f := by rw [hk]; ring
      refine ⟨k, (lim k).mpr ⟨?_, ?_⟩, ?_⟩
      · rw [e]; exact toErb_strictMono.monotone h1
      · rw [e]; exact toErb_strictMono.monotone h2
      · apply toErb_strictMono.injective
        rw [toErb_fromErb, e]
  · intro i j hij hj
    unfold arange at hj ⊢
    rw [List.map_map] at hj ⊢
    rw [List.length_map, List.length_range] at hj
    rw [List.getD_eq_getElem _ _ (by simpa using lt_trans hij hj),
      List.getD_eq_getElem _ _ (by simpa using hj), List.getElem_map, List.getElem_map,
      List.getElem_range, List.getElem_range]
    apply hmono
    have : (i : ℝ) < j := by exact_mod_cast hij
    push_cast
    nlinarith

/-- Ranges that are no pair and resolutions that are not positive are refused. -/
theorem C105_erb_refused (r : List ℝ) (resolution reference : ℝ)
    (h : r.length ≠ 2 ∨ resolution ≤ 0) :
    erbFrequencies r resolution reference = .error .valueError := by
  unfold erbFrequencies
  split
  · rcases h with h | h
    · exact absurd rfl h
    · dsimp only
      rw [if_pos h]
  · rfl

/-- The limits of a fractional octave band: the centre is their geometric mean, their ratio is the
fraction of an octave. -/
theorem C105_bandwidth (fc : ℝ) (n : ℕ) :
    (bandwidth fc n).1 * (bandwidth fc n).2 = fc ^ 2 ∧
    (n ≠ 0 → (bandwidth fc n).2 = (bandwidth fc n).1 * 2 ^ (1 / (n : ℝ))) ∧
    (n = 0 → bandwidth fc n = (fc, fc)) := by
  unfold bandwidth
  by_cases h : n = 0
  · rw [if_pos h]
    exact ⟨by ring, fun h' => absurd h h', fun _ => rfl⟩
  · rw [if_neg h]
    refine ⟨?_, fun _ => ?_, fun h' => absurd h' h⟩
    · dsimp only
      have : (2 : ℝ) ^ (-1 / (n : ℝ) / 2) * 2 ^ (1 / (n : ℝ) / 2) = 1 := by
        rw [← Real.rpow_add (by norm_num),
          show -1 / (n : ℝ) / 2 + 1 / (n : ℝ) / 2 = 0 by ring, Real.rpow_zero]
      linear_combination fc ^ 2 * this
    · dsimp only
      rw [mul_assoc, ← Real.rpow_add (by norm_num)]
      congr 2
      ring

/-- The hypotheses are met by usual calls. -/
example : ∃ g, octaveFrequencies 12 [20, 20000] = .ok ([], g) := by
  obtain ⟨g, h, -⟩ := C105_exact_centres 12 20 20000 (by norm_num) (by norm_num) (by norm_num)
    (by norm_num) (by norm_num)
  exact ⟨g, h⟩

example : ∃ g, erbFrequencies [20, 20000] 1 1000 = .ok g ∧ (1000 : ℝ) ∈ g := by
  obtain ⟨g, h, hm, -⟩ := C105_erb 20 20000 1 1000 (by norm_num)
  exact ⟨g, h, (hm 1000).mpr ⟨⟨0, by simp⟩, by norm_num, by norm_num⟩⟩

end Verif.FrequencyGrids
