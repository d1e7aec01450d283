import Verif.Model.InterpolateFr
import Verif.Lemmas.OctaveSmoothing
import Verif.Props.C106
import Verif.Props.C114

/-!
# C137: interpolation of a frequency response
-/

namespace Verif.InterpolateFr

open Verif.Level

/-- The documented modes.  Each comes with the conversion into the representation of the
interpolation, the conversion back, the value returned for an input value at its own frequency, and
the value returned outside of the range for the input value at the nearer end. -/
inductive Documented : Option (List Char) → (ℝ → ℝ) → (ℝ → ℝ) → (ℝ → ℝ) → (ℝ → ℝ) → Prop
  | none : Documented none (fun v => v) (fun v => v) (fun v => v) (fun _ => 0)
  | power2amplitude : Documented
      (some ['p','o','w','e','r','2','a','m','p','l','i','t','u','d','e'])
      (fun v => Real.sqrt v) (fun v => v ^ 2) (fun v => v) (fun _ => 0)
  | amplitude2power : Documented
      (some ['a','m','p','l','i','t','u','d','e','2','p','o','w','e','r'])
      (fun v => v ^ 2) (fun v => Real.sqrt v) (fun v => |v|) (fun _ => 0)
  | db2amplitude : Documented (some ['d','b','2','a','m','p','l','i','t','u','d','e'])
      (fun v => 10 ^ (v / 20)) (fun v => 20 * Real.logb 10 (max |v| tiny))
      (fun v => max v (20 * Real.logb 10 tiny)) (fun _ => 20 * Real.logb 10 tiny)
  | db2power : Documented (some ['d','b','2','p','o','w','e','r'])
      (fun v => 10 ^ (v / 10)) (fun v => 10 * Real.logb 10 (max |v| tiny))
      (fun v => max v (10 * Real.logb 10 tiny)) (fun _ => 10 * Real.logb 10 tiny)
  | amplitude2db : Documented (some ['a','m','p','l','i','t','u','d','e','2','d','b'])
      (fun v => 20 * Real.logb 10 (max |v| tiny)) (fun v => 10 ^ (v / 20))
      (fun v => max |v| tiny) (fun v => max |v| tiny)
  | power2db : Documented (some ['p','o','w','e','r','2','d','b'])
      (fun v => 10 * Real.logb 10 (max |v| tiny)) (fun v => 10 ^ (v / 10))
      (fun v => max |v| tiny) (fun v => max |v| tiny)

/-- Powers are not negative. -/
def Admissible (mode : Option (List Char)) (y : List ℝ) : Prop :=
  mode = some ['p','o','w','e','r','2','a','m','p','l','i','t','u','d','e'] → ∀ v ∈ y, 0 ≤ v

theorem getD_map' (y : List ℝ) (g : ℝ → ℝ) (i : ℕ) (h : i < y.length) :
    (y.map g).getD i 0 = g (y.getD i 0) := by
  rw [List.getD_eq_getElem _ _ (by simpa using h), List.getElem_map, List.getD_eq_getElem _ _ h]

theorem amp_a2db : isAmplitude ['a','m','p','l','i','t','u','d','e','2','d','b'] = true := by decide
theorem amp_db2a : isAmplitude ['d','b','2','a','m','p','l','i','t','u','d','e'] = true := by decide
theorem amp_p2db : isAmplitude ['p','o','w','e','r','2','d','b'] = false := by decide
theorem amp_db2p : isAmplitude ['d','b','2','p','o','w','e','r'] = false := by decide

/-- The run of the function in a documented mode. -/
theorem run {mode fwd bwd node outside} (hm : Documented mode fwd bwd node outside)
    (f y target : List ℝ) (hl : f.length = y.length) (h2 : 2 ≤ f.length) (ha : Admissible mode y) :
    ∃ below above, bwd below = outside (y.getD 0 0) ∧
      bwd above = outside (y.getD (y.length - 1) 0) ∧
      interpolateFr f y target mode =
        .ok (target.map fun q => bwd (interp1d f (y.map fwd) below above q)) := by
  have hy : y ≠ [] := by rintro rfl; rw [hl] at h2; simp at h2
  have h0 : 0 < y.length := List.length_pos_of_ne_nil hy
  have t := tiny_pos
  have e20 : ∀ x : ℝ, 0 < x → (10 : ℝ) ^ (20 * Real.logb 10 x / 20) = x := by
    intro x hx
    rw [mul_div_cancel_left₀ _ (by norm_num), Real.rpow_logb (by norm_num) (by norm_num) hx]
  have e10 : ∀ x : ℝ, 0 < x → (10 : ℝ) ^ (10 * Real.logb 10 x / 10) = x := by
    intro x hx
    rw [mul_div_cancel_left₀ _ (by norm_num), Real.rpow_logb (by norm_num) (by norm_num) hx]
  cases hm with
  | none =>
    refine ⟨0, 0, rfl, rfl, ?_⟩
    unfold interpolateFr convert back
    simp [hl, show ¬ y.length < 2 by omega]
  | power2amplitude =>
    refine ⟨0, 0, by simp, by simp, ?_⟩
    have := ha rfl
    unfold interpolateFr convert back
    simp only [Option.map_some, show List.map Char.toLower
      ['p','o','w','e','r','2','a','m','p','l','i','t','u','d','e'] =
      ['p','o','w','e','r','2','a','m','p','l','i','t','u','d','e'] by decide]
    rw [if_pos (by decide), if_pos this]
    simp [hl, show ¬ y.length < 2 by omega, InterpolateFr.power2amplitude]
  | amplitude2power =>
    refine ⟨0, 0, by simp, by simp, ?_⟩
    unfold interpolateFr convert back
    simp only [Option.map_some, show List.map Char.toLower
      ['a','m','p','l','i','t','u','d','e','2','p','o','w','e','r'] =
      ['a','m','p','l','i','t','u','d','e','2','p','o','w','e','r'] by decide]
    rw [if_neg (by decide), if_pos (by decide)]
    simp [hl, show ¬ y.length < 2 by omega, InterpolateFr.power2amplitude,
      InterpolateFr.amplitude2power]
  | db2amplitude =>
    refine ⟨0, 0, by simp [t.le], by simp [t.le], ?_⟩
    unfold interpolateFr convert back
    simp only [Option.map_some, show List.map Char.toLower
      ['d','b','2','a','m','p','l','i','t','u','d','e'] =
      ['d','b','2','a','m','p','l','i','t','u','d','e'] by decide]
    rw [if_neg (by decide), if_neg (by decide), if_pos (by decide), amp_db2a]
    simp [hl, show ¬ y.length < 2 by omega, InterpolateFr.power2amplitude,
      InterpolateFr.amplitude2power, fromDb, levelDb, dbFactor]
  | db2power =>
    refine ⟨0, 0, by simp [t.le], by simp [t.le], ?_⟩
    unfold interpolateFr convert back
    simp only [Option.map_some, show List.map Char.toLower
      ['d','b','2','p','o','w','e','r'] = ['d','b','2','p','o','w','e','r'] by decide]
    rw [if_neg (by decide), if_neg (by decide), if_pos (by decide), amp_db2p]
    simp [hl, show ¬ y.length < 2 by omega, InterpolateFr.power2amplitude,
      InterpolateFr.amplitude2power, fromDb, levelDb, dbFactor]
  | amplitude2db =>
    refine ⟨levelDb (y.getD 0 0) true, levelDb (y.getD (y.length - 1) 0) true, ?_, ?_, ?_⟩
    · exact e20 _ (lt_max_of_lt_right t)
    · exact e20 _ (lt_max_of_lt_right t)
    · unfold interpolateFr convert back
      simp only [Option.map_some, show List.map Char.toLower
        ['a','m','p','l','i','t','u','d','e','2','d','b'] =
        ['a','m','p','l','i','t','u','d','e','2','d','b'] by decide]
      rw [if_neg (by decide), if_neg (by decide), if_neg (by decide), if_pos (by decide), if_neg hy,
        amp_a2db]
      simp only [getD_map' y _ 0 h0, List.length_map, getD_map' y _ (y.length - 1) (Nat.sub_lt h0 Nat.one_pos)]
      rw [if_neg (by omega), if_neg (by omega)]
      simp [InterpolateFr.power2amplitude, InterpolateFr.amplitude2power, fromDb, levelDb, dbFactor]
  | power2db =>
    refine ⟨levelDb (y.getD 0 0) false, levelDb (y.getD (y.length - 1) 0) false, ?_, ?_, ?_⟩
    · exact e10 _ (lt_max_of_lt_right t)
    · exact e10 _ (lt_max_of_lt_right t)
    · unfold interpolateFr convert back
      simp only [Option.map_some, show List.map Char.toLower
        ['p','o','w','e','r','2','d','b'] = ['p','o','w','e','r','2','d','b'] by decide]
      rw [if_neg (by decide), if_neg (by decide), if_neg (by decide), if_pos (by decide), if_neg hy,
        amp_p2db]
      simp only [getD_map' y _ 0 h0, List.length_map, getD_map' y _ (y.length - 1) (Nat.sub_lt h0 Nat.one_pos)]
      rw [if_neg (by omega), if_neg (by omega)]
      simp [InterpolateFr.power2amplitude, InterpolateFr.amplitude2power, fromDb, levelDb, dbFactor]

theorem out_eq {target : List ℝ} (g : ℝ → ℝ) {j : ℕ} (hj : j < target.length) :
    (target.map g).getD j 0 = g (target.getD j 0) := getD_map' target g j hj

/-- **C137**: in every documented mode the result has one value for every target frequency.  Inside
of the range, the value is the conversion of a point of the polygon through the converted input.
Below and above the range, it is 0 if the interpolation is done with no conversion or between
amplitude and power, the lowest level for an input in dB, and the magnitude at the nearer end for an
interpolation in dB. -/
theorem C137_values {mode fwd bwd node outside} (hm : Documented mode fwd bwd node outside)
    (f y target : List ℝ) (hf : Increasing f) (hl : f.length = y.length) (h2 : 2 ≤ f.length)
    (ha : Admissible mode y) :
    ∃ r, interpolateFr f y target mode = .ok r ∧ r.length = target.length ∧
      ∀ j < target.length,
        (f.getD 0 0 ≤ target.getD j 0 → target.getD j 0 ≤ f.getD (f.length - 1) 0 →
          ∃ v, OnPolygon f (y.map fwd) (target.getD j 0) v ∧ r.getD j 0 = bwd v) ∧
        (target.getD j 0 < f.getD 0 0 → r.getD j 0 = outside (y.getD 0 0)) ∧
        (f.getD (f.length - 1) 0 < target.getD j 0 →
          r.getD j 0 = outside (y.getD (y.length - 1) 0)) := by
  obtain ⟨b, a, hb, hab, hr⟩ := run hm f y target hl h2 ha
  refine ⟨_, hr, by simp, ?_⟩
  intro j hj
  rw [out_eq _ hj]
  refine ⟨?_, ?_, ?_⟩
  · intro h1 h3
    refine ⟨interp1d f (y.map fwd) b a (target.getD j 0), ?_, rfl⟩
    unfold interp1d
    rw [if_neg (not_lt.mpr h1), if_neg (not_lt.mpr h3)]
    exact LogMean.interpLinear_polygon _ _ _ hf h2 h1 h3
  · intro h1
    unfold interp1d
    rw [if_pos h1, hb]
  · intro h1
    have : f.getD 0 0 < f.getD (f.length - 1) 0 := hf _ _ (by omega) (by omega)
    unfold interp1d
    rw [if_neg (not_lt.mpr (this.trans h1).le), if_pos h1, hab]

theorem node_eq {mode fwd bwd node outside} (hm : Documented mode fwd bwd node outside) (v : ℝ)
    (hv : mode = some ['p','o','w','e','r','2','a','m','p','l','i','t','u','d','e'] → 0 ≤ v) :
    bwd (fwd v) = node v := by
  have t := tiny_pos
  have lv : ∀ c : ℝ, 0 < c → c * Real.logb 10 (max |(10 : ℝ) ^ (v / c)| tiny) =
      max v (c * Real.logb 10 tiny) := by
    intro c hc
    have hp : (0 : ℝ) < 10 ^ (v / c) := by positivity
    have e : c * Real.logb 10 ((10 : ℝ) ^ (v / c)) = v := by
      rw [Real.logb_rpow (by norm_num) (by norm_num)]
      field_simp
    rw [abs_of_pos hp]
    rcases le_total ((10 : ℝ) ^ (v / c)) tiny with h | h
    · rw [max_eq_right h, max_eq_right]
      rw [← e]
      exact mul_le_mul_of_nonneg_left (Real.logb_le_logb_of_le (by norm_num) hp h) hc.le
    · rw [max_eq_left h, e, max_eq_left]
      conv_rhs => rw [← e]
      exact mul_le_mul_of_nonneg_left (Real.logb_le_logb_of_le (by norm_num) t h) hc.le
  cases hm with
  | none => rfl
  | power2amplitude => exact Real.sq_sqrt (hv rfl)
  | amplitude2power => exact Real.sqrt_sq_eq_abs v
  | db2amplitude => exact lv 20 (by norm_num)
  | db2power => exact lv 10 (by norm_num)
  | amplitude2db =>
    dsimp only
    rw [mul_div_cancel_left₀ _ (by norm_num), Real.rpow_logb (by norm_num) (by norm_num)
      (lt_max_of_lt_right t)]
  | power2db =>
    dsimp only
    rw [mul_div_cancel_left₀ _ (by norm_num), Real.rpow_logb (by norm_num) (by norm_num)
      (lt_max_of_lt_right t)]

/-- **C137**: at a frequency of the input, the input value is returned: unchanged without a
conversion and for powers, as a magnitude for amplitudes, and not below the limit of the conversion
to dB in the modes with levels. -/
theorem C137_nodes {mode fwd bwd node outside} (hm : Documented mode fwd bwd node outside)
    (f y target : List ℝ) (hf : Increasing f) (hl : f.length = y.length) (h2 : 2 ≤ f.length)
    (ha : Admissible mode y) (r : List ℝ) (hr : interpolateFr f y target mode = .ok r)
    (j : ℕ) (hj : j < target.length) (i : ℕ) (hi : i < f.length)
    (he : target.getD j 0 = f.getD i 0) : r.getD j 0 = node (y.getD i 0) := by
  obtain ⟨r', hr', -, h⟩ := C137_values hm f y target hf hl h2 ha
  rw [hr] at hr'
  obtain rfl := Except.ok.inj hr'
  have m : ∀ a b, a ≤ b → b < f.length → f.getD a 0 ≤ f.getD b 0 := by
    intro a b hab hb
    rcases Nat.eq_or_lt_of_le hab with rfl | h
    · exact le_rfl
    · exact (hf a b h hb).le
  obtain ⟨v, hv, e⟩ := (h j hj).1 (by rw [he]; exact m 0 i (by omega) hi)
    (by rw [he]; exact m i _ (by omega) (by omega))
  rw [e, hv.2.1 i hi he.symm, getD_map' y fwd i (by omega)]
  apply node_eq hm
  intro hp
  rw [List.getD_eq_getElem _ _ (by omega)]
  exact ha hp _ (List.getElem_mem _)

theorem fwd_mono {mode fwd bwd node outside} (hm : Documented mode fwd bwd node outside) (a b : ℝ)
    (h : a ≤ b) (h0 : 0 ≤ a ∨ mode = none ∨ mode.map (List.take 3) = some ['d','b','2']) :
    fwd a ≤ fwd b := by
  have t := tiny_pos
  have lg : ∀ c : ℝ, 0 ≤ c → 0 ≤ a → c * Real.logb 10 (max |a| tiny) ≤
      c * Real.logb 10 (max |b| tiny) := by
    intro c hc h0
    apply mul_le_mul_of_nonneg_left _ hc
    apply Real.logb_le_logb_of_le (by norm_num) (lt_max_of_lt_right t)
    rw [abs_of_nonneg h0, abs_of_nonneg (h0.trans h)]
    exact max_le_max h le_rfl
  cases hm with
  | none => exact h
  | power2amplitude => exact Real.sqrt_le_sqrt h
  | amplitude2power =>
    rcases h0 with h0 | h0 | h0
    · exact pow_le_pow_left₀ h0 h 2
    · cases h0
    · exact absurd h0 (by decide)
  | db2amplitude =>
    exact Real.rpow_le_rpow_of_exponent_le (by norm_num) (by linarith)
  | db2power =>
    exact Real.rpow_le_rpow_of_exponent_le (by norm_num) (by linarith)
  | amplitude2db =>
    rcases h0 with h0 | h0 | h0
    · exact lg 20 (by norm_num) h0
    · cases h0
    · exact absurd h0 (by decide)
  | power2db =>
    rcases h0 with h0 | h0 | h0
    · exact lg 10 (by norm_num) h0
    · cases h0
    · exact absurd h0 (by decide)

theorem bwd_mono {mode fwd bwd node outside} (hm : Documented mode fwd bwd node outside)
    (a u v : ℝ) (ha : fwd a ≤ u) (h : u ≤ v) : bwd u ≤ bwd v := by
  have t := tiny_pos
  have lg : ∀ c : ℝ, 0 ≤ c → 0 ≤ u → c * Real.logb 10 (max |u| tiny) ≤
      c * Real.logb 10 (max |v| tiny) := by
    intro c hc h0
    apply mul_le_mul_of_nonneg_left _ hc
    apply Real.logb_le_logb_of_le (by norm_num) (lt_max_of_lt_right t)
    rw [abs_of_nonneg h0, abs_of_nonneg (h0.trans h)]
    exact max_le_max h le_rfl
  cases hm with
  | none => exact h
  | power2amplitude => exact pow_le_pow_left₀ ((Real.sqrt_nonneg a).trans ha) h 2
  | amplitude2power => exact Real.sqrt_le_sqrt h
  | db2amplitude => exact lg 20 (by norm_num) (le_trans (by positivity) ha)
  | db2power => exact lg 10 (by norm_num) (le_trans (by positivity) ha)
  | amplitude2db =>
    exact Real.rpow_le_rpow_of_exponent_le (by norm_num) (by linarith)
  | power2db =>
    exact Real.rpow_le_rpow_of_exponent_le (by norm_num) (by linarith)

/-- **C137**: inside of the range of the frequencies the interpolation never leaves the range of the
input values: if all of them lie between `lo` and `hi` (not negative, unless they are levels or are
not converted), the result lies between what is returned for `lo` and for `hi`. -/
theorem C137_between {mode fwd bwd node outside} (hm : Documented mode fwd bwd node outside)
    (f y target : List ℝ) (hf : Increasing f) (hl : f.length = y.length) (h2 : 2 ≤ f.length)
    (lo hi : ℝ) (h0 : 0 ≤ lo ∨ mode = none ∨ mode.map (List.take 3) = some ['d','b','2'])
    (hy : ∀ v ∈ y, lo ≤ v ∧ v ≤ hi) (r : List ℝ) (hr : interpolateFr f y target mode = .ok r)
    (j : ℕ) (hj : j < target.length) (h1 : f.getD 0 0 ≤ target.getD j 0)
    (h3 : target.getD j 0 ≤ f.getD (f.length - 1) 0) :
    node lo ≤ r.getD j 0 ∧ r.getD j 0 ≤ node hi := by
  have p2a : mode = some ['p','o','w','e','r','2','a','m','p','l','i','t','u','d','e'] → 0 ≤ lo := by
    intro h
    rcases h0 with h0 | h0 | h0
    · exact h0
    · rw [h] at h0; cases h0
    · rw [h] at h0; exact absurd h0 (by decide)
  have ha : Admissible mode y := fun h v hv => (p2a h).trans (hy v hv).1
  obtain ⟨b, a, -, -, hr'⟩ := run hm f y target hl h2 ha
  rw [hr] at hr'
  obtain rfl := Except.ok.inj hr'
  rw [out_eq _ hj]
  unfold interp1d
  rw [if_neg (not_lt.mpr h1), if_neg (not_lt.mpr h3)]
  have hlohi : lo ≤ hi := by
    have : y.getD 0 0 ∈ y := by
      rw [List.getD_eq_getElem _ _ (by omega)]
      exact List.getElem_mem _
    exact (hy _ this).1.trans (hy _ this).2
  have key := OctaveSmoothing.interpLinear_between f (y.map fwd) (target.getD j 0) (fwd lo) (fwd hi)
    hf h2 h1 h3 (by simp [hl]) (by
      intro i hi'
      rw [List.length_map] at hi'
      rw [getD_map' y fwd i hi', List.getD_eq_getElem _ _ hi']
      have := hy _ (List.getElem_mem hi')
      refine ⟨fwd_mono hm _ _ this.1 h0, fwd_mono hm _ _ this.2 ?_⟩
      rcases h0 with h0 | h0
      · exact Or.inl (h0.trans this.1)
      · exact Or.inr h0)
  have n1 := node_eq hm lo p2a
  have n2 := node_eq hm hi (fun h => (p2a h).trans hlohi)
  rw [← n1, ← n2]
  exact ⟨bwd_mono hm lo _ _ le_rfl key.1, bwd_mono hm lo _ _ key.1 key.2⟩

/-- **C137**: the mode does not depend on capital letters. -/
theorem C137_case (f y target : List ℝ) (m m' : List Char)
    (h : m.map Char.toLower = m'.map Char.toLower) :
    interpolateFr f y target (some m) = interpolateFr f y target (some m') := by
  unfold interpolateFr
  simp only [Option.map_some, h]

/-- **C137**: a mode is refused exactly if it is neither one of the two conversions between amplitude
and power nor a text that starts with `db2` or ends with `2db`. -/
theorem C137_refused_partial (f y target : List ℝ) (m : List Char) (hm : m.map Char.toLower = m)
    (hl : f.length = y.length) (h2 : 2 ≤ f.length) :
    interpolateFr f y target (some m) = .error .valueError ↔
      m ≠ ['p','o','w','e','r','2','a','m','p','l','i','t','u','d','e'] ∧
      m ≠ ['a','m','p','l','i','t','u','d','e','2','p','o','w','e','r'] ∧
      ¬ ['d','b','2'] <+: m ∧ ¬ ['2','d','b'] <:+ m := by
  have e1 : m.take 3 = ['d','b','2'] ↔ ['d','b','2'] <+: m := by
    rw [List.prefix_iff_eq_take]
    simp [eq_comm]
  have e2 : m.drop (m.length - 3) = ['2','d','b'] ↔ ['2','d','b'] <:+ m := by
    rw [List.suffix_iff_eq_drop]
    simp [eq_comm]
  have hy : y ≠ [] := by rintro rfl; rw [hl] at h2; simp at h2
  unfold interpolateFr convert
  simp only [Option.map_some, hm]
  rw [← e1, ← e2]
  unfold power2amplitude amplitude2power
  have n1 : ¬ y.length < 2 := by omega
  split_ifs <;> simp_all

/-- **C137**, not so: a mode which is not documented is refused.  `foo2db` is taken as `power2db`. -/
theorem C137_unknown_mode_wrong :
    ¬ ∀ (f y target : List ℝ) (m : List Char), f.length = y.length → 2 ≤ f.length →
      (∀ fwd bwd node outside, ¬ Documented (some m) fwd bwd node outside) →
      interpolateFr f y target (some m) = .error .valueError := by
  intro h
  have := h [0, 1] [1, 1] [] ['f','o','o','2','d','b'] rfl (by simp) (by
    intro fwd bwd node outside hd
    cases hd)
  rw [C137_refused_partial [0, 1] [1, 1] _ _ (by decide) rfl (by simp)] at this
  exact this.2.2.2 (by decide)

/-- **C137**: vectors of different lengths are never interpolated; without a mode they raise
ValueError. -/
theorem C137_lengths (f y target : List ℝ) (mode : Option (List Char)) (hl : f.length ≠ y.length) :
    (∀ r, interpolateFr f y target mode ≠ .ok r) ∧
    interpolateFr f y target none = .error .valueError := by
  constructor
  · intro r h
    unfold interpolateFr at h
    dsimp only at h
    cases hc : convert (mode.map fun m => m.map Char.toLower) y with
    | error e =>
      rw [hc] at h
      cases h
    | ok p =>
      obtain ⟨z, b, a⟩ := p
      have hz : z.length = y.length := by
        unfold convert at hc
        cases hm : mode.map fun m => m.map Char.toLower with
        | none =>
          rw [hm] at hc
          injection hc with hc
          have hz : y = z := (Prod.ext_iff.mp hc).1
          rw [← hz]
        | some m =>
          rw [hm] at hc
          dsimp only at hc
          split_ifs at hc <;> first
            | cases hc; done
            | (injection hc with hc
               have hz : _ = z := (Prod.ext_iff.mp hc).1
               rw [← hz]
               simp)
      rw [hc] at h
      dsimp only at h
      rw [if_pos (by rw [hz]; exact hl)] at h
      cases h
  · unfold interpolateFr convert
    simp [hl]

/-- A response with three points: halfway between the first two in power, below and above. -/
example : ∃ fwd bwd node outside, Documented
    (some ['p','o','w','e','r','2','a','m','p','l','i','t','u','d','e']) fwd bwd node outside ∧
    Increasing ([100, 200, 400] : List ℝ) ∧ Admissible
    (some ['p','o','w','e','r','2','a','m','p','l','i','t','u','d','e']) [1, 4, 9] := by
  refine ⟨_, _, _, _, .power2amplitude, ?_, ?_⟩
  · intro i j hij hj
    simp only [List.length_cons, List.length_nil] at hj
    rcases (by omega : (i = 0 ∧ j = 1) ∨ (i = 0 ∧ j = 2) ∨ (i = 1 ∧ j = 2)) with
      ⟨rfl, rfl⟩ | ⟨rfl, rfl⟩ | ⟨rfl, rfl⟩ <;> norm_num
  · intro _ v hv
    simp only [List.mem_cons, List.not_mem_nil, or_false] at hv
    rcases hv with rfl | rfl | rfl <;> norm_num

end Verif.InterpolateFr
