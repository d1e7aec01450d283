import Verif.Model.LogMean
import Verif.Lemmas.OctaveSmoothing
import Verif.Props.C105

/-!
# C106: logarithmic mean and crossover function
-/

namespace Verif.LogMean

open Verif.OctaveSmoothing (logGrid interpLinear)

theorem interpLinear_polygon (x y : List ℝ) (q : ℝ) (hx : Increasing x) (h2 : 2 ≤ x.length)
    (hq : x.getD 0 0 ≤ q) (hq' : q ≤ x.getD (x.length - 1) 0) :
    OnPolygon x y q (interpLinear x y q) := by
  unfold interpLinear
  dsimp only
  generalize hs : min (max (ExactValue.searchsorted x q) 1) (x.length - 1) = s
  obtain ⟨i, rfl⟩ : ∃ i, s = i + 1 := ⟨s - 1, by omega⟩
  rw [Nat.add_sub_cancel]
  have hinc := hx i (i + 1) (by omega) (by omega)
  have a : x.getD i 0 ≤ q := by
    rcases Nat.eq_zero_or_pos i with rfl | h
    · exact hq
    · exact (ExactValue.getD_takeWhile_lt x q i (by omega)).le
  have b : q ≤ x.getD (i + 1) 0 := by
    rcases Nat.lt_or_ge (ExactValue.searchsorted x q) (x.length - 1) with h | h
    · have hle := ExactValue.searchsorted_le x q (by omega)
      rcases Nat.eq_zero_or_pos (ExactValue.searchsorted x q) with h0 | h0
      · rw [h0] at hle
        have : i = 0 := by omega
        subst this
        linarith
      · rw [show i + 1 = ExactValue.searchsorted x q by omega]
        exact hle
    · rw [show i + 1 = x.length - 1 by omega]
      exact hq'
  exact ExactValue.onPolygon_of_segment hx (by omega) a b
    (ExactValue.segment_value' (by linarith))

/-- The positions 1, ..., N. -/
noncomputable def positions (N : ℕ) : List ℝ := (List.range N).map fun (i : ℕ) => (i : ℝ) + 1

theorem getD_positions (N i : ℕ) (h : i < N) : (positions N).getD i 0 = (i : ℝ) + 1 := by
  unfold positions
  rw [List.getD_eq_getElem _ _ (by simpa using h), List.getElem_map, List.getElem_range]

theorem positions_increasing (N : ℕ) : Increasing (positions N) := by
  intro i j hij hj
  have hj' : j < N := by simpa [positions] using hj
  rw [getD_positions N i (by omega), getD_positions N j hj']
  have : (i : ℝ) < j := by exact_mod_cast hij
  linarith

/-- The logarithmic mean is the mean of the values of the polygon through the entries at the positions
N^(k/(N-1)), k = 0, ..., N-1, which run from the first to the last one with a constant ratio. -/
theorem C106_log_mean (x : List ℝ) (h : 2 ≤ x.length) :
    ∃ u : ℕ → ℝ, (∀ k < x.length, OnPolygon (positions x.length) x
        ((x.length : ℝ) ^ ((k : ℝ) / ((x.length : ℝ) - 1))) (u k)) ∧
      logMean x = (∑ k ∈ Finset.range x.length, u k) / x.length := by
  refine ⟨fun k => interpLinear (positions x.length) x (logGrid x.length k), fun k hk => ?_, ?_⟩
  · have hr := OctaveSmoothing.logGrid_range x.length h hk
    have hl : (positions x.length).length = x.length := by simp [positions]
    refine interpLinear_polygon _ _ _ (positions_increasing _) (by rw [hl]; exact h) ?_ ?_
    · rw [getD_positions _ _ (by omega)]
      have := hr.1
      unfold logGrid at this
      simpa using this
    · rw [hl, getD_positions _ _ (by omega), Nat.cast_sub (by omega), Nat.cast_one]
      have := hr.2
      unfold logGrid at this
      simpa using this
  · unfold logMean
    dsimp only
    congr 1

/-- It lies in the range of the entries. -/
theorem C106_log_mean_range (x : List ℝ) (h : 2 ≤ x.length) (lo hi : ℝ)
    (hx : ∀ v ∈ x, lo ≤ v ∧ v ≤ hi) : lo ≤ logMean x ∧ logMean x ≤ hi := by
  have hN : (0 : ℝ) < x.length := by exact_mod_cast (by omega : 0 < x.length)
  have hl : (positions x.length).length = x.length := by simp [positions]
  have key : ∀ v ∈ (List.range x.length).map fun k =>
      interpLinear (positions x.length) x (logGrid x.length k), lo ≤ v ∧ v ≤ hi := by
    intro v hv
    obtain ⟨k, hk, rfl⟩ := List.mem_map.mp hv
    rw [List.mem_range] at hk
    have hr := OctaveSmoothing.logGrid_range x.length h hk
    refine OctaveSmoothing.interpLinear_between _ _ _ lo hi (positions_increasing _)
      (by rw [hl]; exact h) ?_ ?_ hl.symm ?_
    · rw [getD_positions _ _ (by omega)]
      simpa using hr.1
    · rw [hl, getD_positions _ _ (by omega), Nat.cast_sub (by omega), Nat.cast_one]
      simpa using hr.2
    · intro i hi'
      rw [List.getD_eq_getElem _ _ hi']
      exact hx _ (List.getElem_mem _)
  have e : logMean x = ((List.range x.length).map fun k =>
      interpLinear (positions x.length) x (logGrid x.length k)).sum / x.length := rfl
  rw [e, le_div_iff₀ hN, div_le_iff₀ hN]
  have a := List.card_nsmul_le_sum _ lo fun v hv => (key v hv).1
  have b := List.sum_le_card_nsmul _ hi fun v hv => (key v hv).2
  simp only [List.length_map, List.length_range, nsmul_eq_mul] at a b
  constructor <;> linarith

/-- The spline passes through its points. -/
def Interpolates (cubic : List ℝ → List ℝ → ℝ → ℝ) : Prop :=
  ∀ f w : List ℝ, Increasing f → f.length = w.length → ∀ i < f.length,
    cubic f w (f.getD i 0) = w.getD i 0

theorem getD_linspace (a b : ℝ) (n i : ℕ) (h : i < n) (hn : n ≠ 1) :
    (linspace a b n).getD i 0 = a + i * ((b - a) / ((n : ℝ) - 1)) := by
  unfold linspace
  rw [List.getD_eq_getElem _ _ (by simpa using h), List.getElem_map, List.getElem_range, if_neg hn]

theorem linspace_increasing {a b : ℝ} (hab : a < b) {n : ℕ} (hn : 2 ≤ n) :
    Increasing (linspace a b n) := by
  intro i j hij hj
  have hj' : j < n := by simpa [linspace] using hj
  rw [getD_linspace _ _ _ _ (by omega) (by omega), getD_linspace _ _ _ _ hj' (by omega)]
  have h1 : (2 : ℝ) ≤ n := by exact_mod_cast hn
  have h2 : (i : ℝ) < j := by exact_mod_cast hij
  have h3 : 0 < (b - a) / ((n : ℝ) - 1) := div_pos (by linarith) (by linarith)
  nlinarith

theorem getD_rise (L i : ℕ) (h : i < L) :
    (rise L).getD i 0 = 0.5 - 0.5 * Real.cos (2 * Real.pi * i / (2 * (L : ℝ) - 1)) := by
  unfold rise
  rw [List.getD_eq_getElem _ _ (by simpa using h), List.getElem_map, List.getElem_range]

/-- On the linear axis (at least 4 Hz wide), the crossover is 0 up to the lower limit and 1 above the
upper limit. -/
theorem C106_crossover_partial (cubic : List ℝ → List ℝ → ℝ → ℝ) (hc : Interpolates cubic)
    (f0 f1 : ℝ) (h : 4 ≤ f1 - f0) :
    ∃ c, crossover cubic f0 f1 false = .ok c ∧ (∀ x ≤ f0, c x = 0) ∧ ∀ x, f1 < x → c x = 1 := by
  generalize hL : ⌊f1 - f0⌋₊ = L
  have hL4 : 4 ≤ L := by rw [← hL]; exact Nat.le_floor (by exact_mod_cast h)
  have hL' : (4 : ℝ) ≤ L := by exact_mod_cast hL4
  have hlen : (linspace f0 f1 L).length = L := by simp [linspace]
  unfold crossover crossoverGrid
  rw [if_neg (by simp), if_neg (by linarith), hL]
  simp only [bind, Except.bind, hlen]
  rw [if_neg (by omega)]
  have e0 : (linspace f0 f1 L).getD 0 0 = f0 := by
    rw [getD_linspace _ _ _ _ (by omega) (by omega)]; simp
  have e1 : (linspace f0 f1 L).getD (L - 1) 0 = f1 := by
    rw [getD_linspace _ _ _ _ (by omega) (by omega), Nat.cast_sub (by omega), Nat.cast_one]
    have : (L : ℝ) - 1 ≠ 0 := by linarith
    field_simp
    ring
  refine ⟨_, rfl, ?_, ?_⟩
  · intro x hx
    rw [e0, e1]
    rcases lt_or_eq_of_le hx with h1 | rfl
    · rw [if_pos h1]
    · rw [if_neg (lt_irrefl _), if_neg (by linarith)]
      have := hc (linspace x f1 L) (rise L) (linspace_increasing (by linarith) (by omega))
        (by rw [hlen]; simp [rise]) 0 (by omega)
      rw [e0, getD_rise _ _ (by omega)] at this
      rw [this]
      norm_num
  · intro x hx
    rw [e0, e1, if_neg (by linarith), if_pos hx]

/-- But it does not reach 1 at the upper limit: the value there stays below 1, whatever spline is
used. -/
theorem C106_crossover_jumps_at_the_end (cubic : List ℝ → List ℝ → ℝ → ℝ)
    (hc : Interpolates cubic) (f0 f1 : ℝ) (h : 4 ≤ f1 - f0) :
    ∃ c, crossover cubic f0 f1 false = .ok c ∧ c f1 < 1 := by
  generalize hL : ⌊f1 - f0⌋₊ = L
  have hL4 : 4 ≤ L := by rw [← hL]; exact Nat.le_floor (by exact_mod_cast h)
  have hL' : (4 : ℝ) ≤ L := by exact_mod_cast hL4
  have hlen : (linspace f0 f1 L).length = L := by simp [linspace]
  unfold crossover crossoverGrid
  rw [if_neg (by simp), if_neg (by linarith), hL]
  simp only [bind, Except.bind, hlen]
  rw [if_neg (by omega)]
  have e0 : (linspace f0 f1 L).getD 0 0 = f0 := by
    rw [getD_linspace _ _ _ _ (by omega) (by omega)]; simp
  have e1 : (linspace f0 f1 L).getD (L - 1) 0 = f1 := by
    rw [getD_linspace _ _ _ _ (by omega) (by omega), Nat.cast_sub (by omega), Nat.cast_one]
    have : (L : ℝ) - 1 ≠ 0 := by linarith
    field_simp
    ring
  refine ⟨_, rfl, ?_⟩
  rw [e0, e1, if_neg (by linarith), if_neg (lt_irrefl _)]
  have := hc (linspace f0 f1 L) (rise L) (linspace_increasing (by linarith) (by omega))
    (by rw [hlen]; simp [rise]) (L - 1) (by omega)
  rw [e1, getD_rise _ _ (by omega), Nat.cast_sub (by omega), Nat.cast_one] at this
  rw [this]
  have hpi := Real.pi_pos
  have hd : (0 : ℝ) < 2 * L - 1 := by linarith
  have hcos : Real.cos Real.pi < Real.cos (2 * Real.pi * ((L : ℝ) - 1) / (2 * L - 1)) := by
    apply Real.cos_lt_cos_of_nonneg_of_le_pi
    · apply div_nonneg _ hd.le
      have : 0 ≤ (L : ℝ) - 1 := by linarith
      positivity
    · exact le_rfl
    · rw [div_lt_iff₀ hd]
      nlinarith
  rw [Real.cos_pi] at hcos
  linarith

/-- Regions below 4 Hz (linear axis) are refused. -/
theorem C106_crossover_refused (cubic : List ℝ → List ℝ → ℝ → ℝ) (f0 f1 : ℝ) (h : f1 - f0 < 4) :
    crossover cubic f0 f1 false = .error .valueError := by
  unfold crossover crossoverGrid
  rw [if_neg (by simp)]
  by_cases h1 : f1 - f0 ≤ -1
  · rw [if_pos h1]
    rfl
  · rw [if_neg h1]
    have : ⌊f1 - f0⌋₊ < 4 := by
      rw [Nat.floor_lt' (by norm_num)]
      exact_mod_cast h
    simp only [bind, Except.bind]
    rw [if_pos (by simpa [linspace] using this)]

/-- On the logarithmic axis the crossover is 1 from a frequency below the upper limit on. -/
theorem C106_logarithmic_crossover (cubic : List ℝ → List ℝ → ℝ → ℝ) (f0 f1 : ℝ) (h0 : 0 < f0)
    (h : 2 * f0 ≤ f1) :
    ∃ c e, crossover cubic f0 f1 true = .ok c ∧ e < f1 ∧ f1 ≤ e * 2 ^ ((1 : ℝ) / 250) ∧
      (∀ x < f0, c x = 0) ∧ ∀ x, e < x → c x = 1 := by
  obtain ⟨g, hg, hpos, hfirst, hstep, hin, hlast⟩ :=
    FrequencyGrids.C105_log_vector f0 f1 250 h0 (by linarith) (by norm_num)
  have hmem : g.getD (g.length - 1) 0 ∈ g := by
    rw [List.getD_eq_getElem _ _ (by omega)]
    exact List.getElem_mem _
  have hlen : 4 ≤ g.length := by
    by_contra hc
    rw [not_le] at hc
    have p : (1 : ℝ) ≤ 2 ^ ((1 : ℝ) / 250) := Real.one_le_rpow (by norm_num) (by norm_num)
    have hget : ∀ k < g.length, g.getD k 0 = f0 * (2 ^ ((1 : ℝ) / 250)) ^ k := by
      intro k
      induction k with
      | zero => intro _; rw [hfirst]; ring
      | succ k ih =>
        intro hk
        rw [hstep k hk, ih (by omega)]
        push_cast
        ring
    rw [hget _ (by omega)] at hlast
    push_cast at hlast
    have e : f0 * ((2 : ℝ) ^ ((1 : ℝ) / 250)) ^ (g.length - 1) * 2 ^ ((1 : ℝ) / 250) =
        f0 * (2 ^ ((1 : ℝ) / 250)) ^ g.length := by
      rw [mul_assoc, ← pow_succ, Nat.sub_add_cancel hpos]
    rw [e] at hlast
    have hle : ((2 : ℝ) ^ ((1 : ℝ) / 250)) ^ g.length ≤ (2 ^ ((1 : ℝ) / 250)) ^ 3 :=
      pow_le_pow_right₀ p (by omega)
    have h3 : ((2 : ℝ) ^ ((1 : ℝ) / 250)) ^ 3 < 2 := by
      rw [← Real.rpow_natCast, ← Real.rpow_mul (by norm_num)]
      calc (2 : ℝ) ^ ((1 : ℝ) / 250 * (3 : ℕ)) < 2 ^ (1 : ℝ) :=
            Real.rpow_lt_rpow_of_exponent_lt (by norm_num) (by norm_num)
        _ = 2 := Real.rpow_one 2
    nlinarith
  unfold crossover crossoverGrid
  rw [if_pos rfl, hg]
  simp only [bind, Except.bind]
  rw [if_neg (by omega)]
  refine ⟨_, g.getD (g.length - 1) 0, rfl, (hin _ hmem).2, by exact_mod_cast hlast, ?_, ?_⟩
  · intro x hx
    rw [hfirst, if_pos hx]
  · intro x hx
    rw [if_neg, if_pos hx]
    rw [hfirst, not_lt]
    linarith [(hin _ hmem).1]

/-- Splines through the points exist (for instance polygons with the given values at the points). -/
example : ∃ cubic, Interpolates cubic := by
  classical
  refine ⟨fun f w q => if h : ∃ i < f.length, f.getD i 0 = q then w.getD h.choose 0 else 0, ?_⟩
  intro f w hf _ i hi
  have h : ∃ j < f.length, f.getD j 0 = f.getD i 0 := ⟨i, hi, rfl⟩
  dsimp only
  rw [dif_pos h]
  have hs := h.choose_spec
  congr 1
  exact le_antisymm (ExactValue.incr_le hf hs.1 hs.2.le) (ExactValue.incr_le hf hi hs.2.ge)

end Verif.LogMean
