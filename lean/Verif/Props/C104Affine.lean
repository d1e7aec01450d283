import Verif.Props.C104
import Mathlib.Tactic.LinearCombination

/-!
# C104: smoothing of scaled and shifted vectors
-/

namespace Verif.OctaveSmoothing

theorem inner_scale (a x y : ℝ) : inner (a * x) (a * y) = a * inner x y := by
  by_cases ha : a = 0
  · subst ha
    unfold inner
    simp
  unfold inner
  have h1 : (SignType.sign (a * x) ≠ SignType.sign (a * y) ∨ a * x = 0 ∨ a * y = 0) ↔
      (SignType.sign x ≠ SignType.sign y ∨ x = 0 ∨ y = 0) := by
    rw [sign_mul, sign_mul]
    have h0 : SignType.sign a ≠ 0 := sign_ne_zero.2 ha
    simp only [mul_eq_zero, ha, false_or, ne_eq, mul_right_inj' h0]
  by_cases h : SignType.sign x ≠ SignType.sign y ∨ x = 0 ∨ y = 0
  · rw [if_pos h, if_pos (h1.2 h), mul_zero]
  · rw [if_neg h, if_neg (mt h1.1 h)]
    push Not at h
    obtain ⟨hs, hx, hy⟩ := h
    have hxy : y + x ≠ 0 := by
      intro h
      have hyx : y = -x := by linarith
      rw [hyx, Left.sign_neg] at hs
      rcases lt_or_gt_of_ne hx with h' | h'
      · rw [sign_neg h'] at hs; exact absurd hs (by decide)
      · rw [sign_pos h'] at hs; exact absurd hs (by decide)
    have hsum : 3 / x + 3 / y ≠ 0 := by
      have : 3 / x + 3 / y = 3 * (y + x) / (x * y) := by field_simp
      rw [this]
      positivity
    have e : 3 / (a * x) + 3 / (a * y) = (3 / x + 3 / y) / a := by field_simp
    rw [e]
    field_simp

theorem edge_scale (a x y : ℝ) : edge (a * x) (a * y) = a * edge x y := by
  by_cases ha : a = 0
  · subst ha
    unfold edge
    simp
  have h0 : SignType.sign a ≠ 0 := sign_ne_zero.2 ha
  unfold edge
  dsimp only
  have e : (3 * (a * x) - a * y) / 2 = a * ((3 * x - y) / 2) := by ring
  rw [e, sign_mul, sign_mul, sign_mul]
  generalize (3 * x - y) / 2 = d
  have h1 : (SignType.sign a * SignType.sign d ≠ SignType.sign a * SignType.sign x) ↔
      SignType.sign d ≠ SignType.sign x := by
    simp only [ne_eq, mul_right_inj' h0]
  have h2 : (SignType.sign a * SignType.sign x ≠ SignType.sign a * SignType.sign y ∧ |a * d| > 3 * |a * x|) ↔
      (SignType.sign x ≠ SignType.sign y ∧ |d| > 3 * |x|) := by
    simp only [ne_eq, mul_right_inj' h0, abs_mul]
    have hp : 0 < |a| := abs_pos.2 ha
    have : |a| * |d| > 3 * (|a| * |x|) ↔ |d| > 3 * |x| := by
      constructor
      · intro h; nlinarith
      · intro h; nlinarith
    rw [this]
  by_cases c1 : SignType.sign d ≠ SignType.sign x
  · rw [if_pos c1, if_pos (h1.2 c1), mul_zero]
  rw [if_neg c1, if_neg (mt h1.1 c1)]
  by_cases c2 : SignType.sign x ≠ SignType.sign y ∧ |d| > 3 * |x|
  · rw [if_pos c2, if_pos (h2.2 c2)]
    ring
  · rw [if_neg c2, if_neg (mt h2.1 c2)]

theorem slope_affine (a c : ℝ) (y y' : ℕ → ℝ) (k : ℕ) (h0 : y' k = a * y k + c)
    (h1 : y' (k + 1) = a * y (k + 1) + c) : slope y' k = a * slope y k := by
  unfold slope
  rw [h0, h1]
  ring

theorem deriv_affine (a c : ℝ) (N : ℕ) (hN : 2 ≤ N) (y y' : ℕ → ℝ) (h : ∀ i < N, y' i = a * y i + c) (k : ℕ)
    (hk : k < N) : deriv N y' k = a * deriv N y k := by
  have hs : ∀ i, i + 1 < N → slope y' i = a * slope y i := fun i hi =>
    slope_affine a c y y' i (h i (by omega)) (h (i + 1) hi)
  unfold deriv
  by_cases c1 : N = 2
  · rw [if_pos c1, if_pos c1, hs 0 (by omega)]
  rw [if_neg c1, if_neg c1]
  by_cases c2 : k = 0
  · rw [if_pos c2, if_pos c2, hs 0 (by omega), hs 1 (by omega), edge_scale]
  rw [if_neg c2, if_neg c2]
  by_cases c3 : k = N - 1
  · rw [if_pos c3, if_pos c3, hs (N - 2) (by omega), hs (N - 3) (by omega), edge_scale]
  · rw [if_neg c3, if_neg c3, hs (k - 1) (by omega), hs k (by omega), inner_scale]

theorem pchip_affine (a c : ℝ) (N : ℕ) (hN : 2 ≤ N) (y y' : ℕ → ℝ) (h : ∀ i < N, y' i = a * y i + c) (x : ℝ) :
    pchip N y' x = a * pchip N y x + c := by
  unfold pchip
  dsimp only
  have hi : min (⌊x⌋₊ - 1) (N - 2) + 1 < N := by omega
  generalize min (⌊x⌋₊ - 1) (N - 2) = i at *
  rw [h i (by omega), h (i + 1) hi, deriv_affine a c N hN y y' h i (by omega),
    deriv_affine a c N hN y y' h (i + 1) hi]
  ring

theorem interpLinear_affine (a c : ℝ) (x y y' : List ℝ) (q : ℝ) (h2 : 2 ≤ x.length)
    (h : ∀ i < x.length, y'.getD i 0 = a * y.getD i 0 + c) :
    interpLinear x y' q = a * interpLinear x y q + c := by
  unfold interpLinear
  dsimp only
  generalize hh : min (max (ExactValue.searchsorted x q) 1) (x.length - 1) = hi
  rw [h hi (by omega), h (hi - 1) (by omega)]
  ring

/-- Weighted means of scaled and shifted values. -/
theorem valid_affine (a c : ℝ) (w : List ℝ) (N h : ℕ) (v v' : ℕ → ℝ) (hN : 0 < N) (hw : w.length = 2 * h + 1)
    (hs : w.sum ≠ 0) (hv : ∀ i < N, v' i = a * v i + c) :
    valid (normalised w) (N + 2 * h) (pad h N v') =
      (valid (normalised w) (N + 2 * h) (pad h N v)).map fun x => a * x + c := by
  have hw' : (normalised w).length = 2 * h + 1 := by simpa [normalised] using hw
  rw [valid_eq _ N h v hN hw', valid_eq _ N h v' hN hw', List.map_map]
  refine List.map_congr_left fun i _ => ?_
  have h1 : ∑ j ∈ Finset.range (2 * h + 1), (normalised w).getD j 0 = 1 := by
    rw [← hw, Finset.sum_congr rfl fun j hj => getD_normalised w j (Finset.mem_range.mp hj),
      ← Finset.sum_div, sum_getD, div_self hs]
  simp only [Function.comp]
  rw [Finset.mul_sum]
  have h2 : c = ∑ j ∈ Finset.range (2 * h + 1), (normalised w).getD j 0 * c := by
    rw [← Finset.sum_mul, h1, one_mul]
  conv_rhs => rw [h2]
  rw [← Finset.sum_add_distrib]
  refine Finset.sum_congr rfl fun j _ => ?_
  rw [hv _ (by omega)]
  ring

/-- **C104**: smoothing commutes with changes of scale and offset. If every value of a vector is multiplied by
the same number and moved by the same amount, so is every smoothed value, for every spacing and every window
without negative samples. -/
theorem C104_affine (v : List ℝ) (spacing : Option ℝ) (fractions : ℕ) (w : ℕ → List ℝ) (hw : Averaging w)
    (hv : v ≠ []) (hl : spacing = none → 2 ≤ v.length) (a c : ℝ) :
    ∃ r w', smooth v spacing fractions (.type w) false = .ok (some r, w') ∧
      smooth (v.map fun x => a * x + c) spacing fractions (.type w) false =
        .ok (some (r.map fun x => a * x + c), w') := by
  have hpos : 0 < v.length := List.length_pos_of_ne_nil hv
  have hget : ∀ i < v.length, (v.map fun x => a * x + c).getD i 0 = a * v.getD i 0 + c := by
    intro i hi
    rw [List.getD_eq_getElem _ _ (by simpa using hi), List.getElem_map, List.getD_eq_getElem _ _ hi]
  unfold smooth
  cases spacing with
  | none =>
    have h2 := hl rfl
    dsimp only [windowOf]
    simp only [List.length_map]
    have hlt : ¬ v.length < 2 := by omega
    rw [if_neg hlt, if_neg hlt]
    generalize hn : windowLength fractions (Real.logb 2 (logGrid v.length 1)) = n
    have hodd : n % 2 = 1 := by rw [← hn]; exact windowLength_odd _ _
    obtain ⟨h3, h4, h5⟩ := hw n hodd
    have hlen : (w n).length = 2 * (n / 2) + 1 := by rw [h3]; exact odd_form hodd
    rw [valid_affine a c (w n) v.length (n / 2)
      (fun k => pchip v.length (fun i => v.getD i 0) (logGrid v.length k))
      (fun k => pchip v.length (fun i => (v.map fun x => a * x + c).getD i 0) (logGrid v.length k)) hpos hlen
      h5.ne' (fun i _ => pchip_affine a c v.length h2 _ _ hget _)]
    have hlen' : (valid (normalised (w n)) (v.length + 2 * (n / 2)) (pad (n / 2) v.length
        (fun k => pchip v.length (fun i => v.getD i 0) (logGrid v.length k)))).length =
        v.length := by
      rw [valid_eq _ _ _ _ hpos (by simpa [normalised] using hlen)]
      simp
    generalize valid (normalised (w n)) (v.length + 2 * (n / 2)) (pad (n / 2) v.length
        (fun k => pchip v.length (fun i => v.getD i 0) (logGrid v.length k))) = s at *
    rw [if_neg (not_not.mpr hlen'), if_neg h5.ne', if_neg (by simp),
      if_neg (not_not.mpr (by rw [List.length_map, hlen'])), if_neg h5.ne', if_neg (by simp)]
    refine ⟨_, _, rfl, ?_⟩
    congr 3
    rw [List.map_map]
    refine List.map_congr_left fun i _ => ?_
    simp only [Function.comp]
    refine interpLinear_affine a c _ _ _ _ (by simpa using h2) fun j hj => ?_
    rw [List.length_map, List.length_range] at hj
    rw [List.getD_eq_getElem _ _ (by rw [List.length_map, hlen']; exact hj), List.getElem_map,
      List.getD_eq_getElem _ _ (by rw [hlen']; exact hj)]
  | some beta =>
    dsimp only [windowOf]
    simp only [List.length_map]
    have hlt : ¬ v.length = 0 := by omega
    rw [if_neg hlt, if_neg hlt]
    generalize hn : windowLength fractions beta = n
    have hodd : n % 2 = 1 := by rw [← hn]; exact windowLength_odd _ _
    obtain ⟨h3, h4, h5⟩ := hw n hodd
    have hlen : (w n).length = 2 * (n / 2) + 1 := by rw [h3]; exact odd_form hodd
    rw [valid_affine a c (w n) v.length (n / 2) (fun i => v.getD i 0)
      (fun i => (v.map fun x => a * x + c).getD i 0) hpos hlen h5.ne' hget,
      if_neg h5.ne', if_neg h5.ne', if_neg (by simp), if_neg (by simp)]
    exact ⟨_, _, rfl, rfl⟩

/-- The hypotheses are met by the default window. -/
example : ∃ r w', smooth [1, 2, 5, 3] none 3 (.type hann) false = .ok (some r, w') ∧
    smooth ([1, 2, 5, 3].map fun x => (-2) * x + 7) none 3 (.type hann) false =
      .ok (some (r.map fun x => (-2) * x + 7), w') :=
  C104_affine [1, 2, 5, 3] none 3 hann C104_hann (by simp) (fun _ => by simp) (-2) 7

end Verif.OctaveSmoothing
