import Verif.Props.C71
import Mathlib.Analysis.Real.Pi.Bounds
import Mathlib.Analysis.SpecialFunctions.Trigonometric.Bounds

/-!
# C73: warping of poles and zeros, and the named warping factors
-/

namespace Verif.Props.C73

open Warp C71

/-- The response of the filter with these zeros, poles and gain at `w = z⁻¹`. -/
noncomputable def response (F : Zpk) (w : ℂ) : ℂ :=
  F.k * (F.z.map fun r => 1 - r * w).prod / (F.p.map fun r => 1 - r * w).prod

/-- The constant by which the response of the warped filter is off. -/
noncomputable def offset (lam : ℝ) (F : Zpk) : ℂ :=
  (F.z.map fun r => 1 + (lam : ℂ) * r).prod / (F.p.map fun r => 1 + (lam : ℂ) * r).prod

theorem ok_cases {lam : ℝ} {F G : Zpk} (h : warpFilter lam F = .ok G) :
    |lam| < 1 ∧ (∀ r ∈ F.p ++ F.z, 1 + (lam : ℂ) * r ≠ 0) ∧
      G = ⟨F.z.map (warpRoot lam) ++ List.replicate (F.p.length - F.z.length) (lam : ℂ),
        F.p.map (warpRoot lam) ++ List.replicate (F.z.length - F.p.length) (lam : ℂ), F.k⟩ := by
  unfold warpFilter at h
  by_cases hl : |lam| < 1
  · rw [if_neg (not_not.2 hl)] at h
    dsimp only at h
    split_ifs at h with h1 h2 h3
    · refine ⟨hl, fun r hr h0 => h1 ⟨r, hr, h0⟩, ?_⟩
      simp only [List.length_map] at h2 h
      rw [← Except.ok.inj h, Nat.sub_eq_zero_of_le h2.le, List.replicate_zero, List.append_nil]
    · refine ⟨hl, fun r hr h0 => h1 ⟨r, hr, h0⟩, ?_⟩
      simp only [List.length_map] at h3 h
      rw [← Except.ok.inj h, Nat.sub_eq_zero_of_le h3.le, List.replicate_zero, List.append_nil]
    · refine ⟨hl, fun r hr h0 => h1 ⟨r, hr, h0⟩, ?_⟩
      simp only [List.length_map] at h2 h3
      rw [← Except.ok.inj h, Nat.sub_eq_zero_of_le (by omega), Nat.sub_eq_zero_of_le (by omega)]
      simp
  · rw [if_pos hl] at h
    exact nomatch h

/-- The filter can be warped unless a root is at `-1 / λ`; factors outside of the unit interval are
refused. -/
theorem C73_defined (lam : ℝ) (F : Zpk) :
    (|lam| < 1 → (∀ r ∈ F.p ++ F.z, 1 + (lam : ℂ) * r ≠ 0) → ∃ G, warpFilter lam F = .ok G) ∧
      (¬ |lam| < 1 → warpFilter lam F = .error .assertionError) := by
  refine ⟨fun hl h => ?_, fun hl => by unfold warpFilter; rw [if_pos hl]⟩
  unfold warpFilter
  rw [if_neg (not_not.2 hl), if_neg (by rintro ⟨r, hr, h0⟩; exact h r hr h0)]
  dsimp only
  split_ifs <;> exact ⟨_, rfl⟩

theorem prod_map (lam : ℝ) (l : List ℂ) (h : ∀ r ∈ l, 1 + (lam : ℂ) * r ≠ 0) (w : ℂ)
    (hw : 1 - (lam : ℂ) * w ≠ 0) :
    ((l.map (warpRoot lam)).map fun r => 1 - r * w).prod * (l.map fun r => 1 + (lam : ℂ) * r).prod =
      (1 - (lam : ℂ) * w) ^ l.length * (l.map fun r => 1 - r * allpassAt lam w).prod := by
  induction l with
  | nil => simp
  | cons r l ih =>
    have h1 := h r (by simp)
    have e : (1 - warpRoot lam r * w) * (1 + (lam : ℂ) * r) =
        (1 - (lam : ℂ) * w) * (1 - r * allpassAt lam w) := by
      unfold warpRoot allpassAt
      field_simp
      ring
    have ih := ih fun r hr => h r (by simp [hr])
    simp only [List.map_cons, List.prod_cons, List.length_cons, pow_succ]
    linear_combination (((l.map (warpRoot lam)).map fun r => 1 - r * w).prod *
      (l.map fun r => 1 + (lam : ℂ) * r).prod) * e +
      (1 - (lam : ℂ) * w) * (1 - r * allpassAt lam w) * ih

theorem prod_ne_zero (lam : ℝ) (l : List ℂ) (h : ∀ r ∈ l, 1 + (lam : ℂ) * r ≠ 0) :
    (l.map fun r => 1 + (lam : ℂ) * r).prod ≠ 0 := by
  refine List.prod_ne_zero fun h0 => ?_
  obtain ⟨r, hr, h1⟩ := List.mem_map.1 h0
  exact h r hr h1

/-- Up to a constant, the response of the warped filter is the response of the filter at the
frequency to which the allpass maps. -/
theorem C73_response (lam : ℝ) (F G : Zpk) (h : warpFilter lam F = .ok G) (w : ℂ)
    (hw : 1 - (lam : ℂ) * w ≠ 0) :
    response G w * offset lam F = response F (allpassAt lam w) ∧ offset lam F ≠ 0 := by
  obtain ⟨_, h0, rfl⟩ := ok_cases h
  have hz : ∀ r ∈ F.z, 1 + (lam : ℂ) * r ≠ 0 := fun r hr => h0 r (by simp [hr])
  have hp : ∀ r ∈ F.p, 1 + (lam : ℂ) * r ≠ 0 := fun r hr => h0 r (by simp [hr])
  have e1 := prod_map lam F.z hz w hw
  have e2 := prod_map lam F.p hp w hw
  have n1 := prod_ne_zero lam F.z hz
  have n2 := prod_ne_zero lam F.p hp
  refine ⟨?_, div_ne_zero n1 n2⟩
  unfold response offset
  dsimp only
  rw [List.map_append, List.map_append, List.prod_append, List.prod_append, List.map_replicate,
    List.map_replicate, List.prod_replicate, List.prod_replicate, div_mul_div_comm]
  have hd : ∀ a b : ℕ, (1 - (lam : ℂ) * w) ^ (b - a) * (1 - (lam : ℂ) * w) ^ a =
      (1 - (lam : ℂ) * w) ^ (a - b) * (1 - (lam : ℂ) * w) ^ b := by
    intro a b
    rw [← pow_add, ← pow_add]
    congr 1
    omega
  have num : F.k * ((((F.z.map (warpRoot lam)).map fun r => 1 - r * w).prod *
      (1 - (lam : ℂ) * w) ^ (F.p.length - F.z.length))) *
      (F.z.map fun r => 1 + (lam : ℂ) * r).prod =
      ((1 - (lam : ℂ) * w) ^ (F.z.length - F.p.length) * (1 - (lam : ℂ) * w) ^ F.p.length) *
        (F.k * (F.z.map fun r => 1 - r * allpassAt lam w).prod) := by
    linear_combination (F.k * (1 - (lam : ℂ) * w) ^ (F.p.length - F.z.length)) * e1 +
      (F.k * (F.z.map fun r => 1 - r * allpassAt lam w).prod) * hd F.z.length F.p.length
  have den : ((F.p.map (warpRoot lam)).map fun r => 1 - r * w).prod *
      (1 - (lam : ℂ) * w) ^ (F.z.length - F.p.length) *
      (F.p.map fun r => 1 + (lam : ℂ) * r).prod =
      ((1 - (lam : ℂ) * w) ^ (F.z.length - F.p.length) * (1 - (lam : ℂ) * w) ^ F.p.length) *
        (F.p.map fun r => 1 - r * allpassAt lam w).prod := by
    linear_combination (1 - (lam : ℂ) * w) ^ (F.z.length - F.p.length) * e2
  rw [num, den, mul_div_mul_left _ _ (mul_ne_zero (pow_ne_zero _ hw) (pow_ne_zero _ hw))]

/-- A pole or zero inside the unit circle stays inside, one outside stays outside. -/
theorem warpRoot_norm (lam : ℝ) (hl : |lam| < 1) (r : ℂ) (h0 : 1 + (lam : ℂ) * r ≠ 0) :
    ‖warpRoot lam r‖ < 1 ↔ ‖r‖ < 1 := by
  unfold warpRoot
  rw [norm_div, div_lt_one (norm_pos_iff.2 h0)]
  have h1 : ‖(lam : ℂ) + r‖ ^ 2 = lam ^ 2 + 2 * lam * r.re + ‖r‖ ^ 2 := by
    rw [← Complex.normSq_eq_norm_sq, ← Complex.normSq_eq_norm_sq, Complex.normSq_apply,
      Complex.normSq_apply]
    simp
    ring
  have h2 : ‖1 + (lam : ℂ) * r‖ ^ 2 = 1 + 2 * lam * r.re + lam ^ 2 * ‖r‖ ^ 2 := by
    rw [← Complex.normSq_eq_norm_sq, ← Complex.normSq_eq_norm_sq, Complex.normSq_apply,
      Complex.normSq_apply]
    simp
    ring
  have hk : 0 < 1 - lam ^ 2 := by nlinarith [abs_lt.1 hl]
  constructor
  · intro h
    have : ‖(lam : ℂ) + r‖ ^ 2 < ‖1 + (lam : ℂ) * r‖ ^ 2 := by
      have := norm_nonneg ((lam : ℂ) + r)
      nlinarith
    rw [h1, h2] at this
    have h3 : (1 - lam ^ 2) * ‖r‖ ^ 2 < (1 - lam ^ 2) * 1 := by linarith
    have h4 := lt_of_mul_lt_mul_left h3 hk.le
    exact (sq_lt_one_iff₀ (norm_nonneg r)).1 h4
  · intro h
    refine lt_of_pow_lt_pow_left₀ 2 (norm_nonneg _) ?_
    rw [h1, h2]
    have h4 := (sq_lt_one_iff₀ (norm_nonneg r)).2 h
    have := mul_lt_mul_of_pos_left h4 hk
    linarith

/-- Stability and minimum phase are kept, and the warped filter has as many poles as zeros. -/
theorem C73_stability (lam : ℝ) (F G : Zpk) (h : warpFilter lam F = .ok G) :
    ((∀ r ∈ G.p, ‖r‖ < 1) ↔ ∀ r ∈ F.p, ‖r‖ < 1) ∧ ((∀ r ∈ G.z, ‖r‖ < 1) ↔ ∀ r ∈ F.z, ‖r‖ < 1) ∧
      G.p.length = max F.p.length F.z.length ∧ G.z.length = G.p.length ∧ G.k = F.k := by
  obtain ⟨hl, h0, rfl⟩ := ok_cases h
  have gen : ∀ (l : List ℂ) (m : ℕ), (∀ r ∈ l, 1 + (lam : ℂ) * r ≠ 0) →
      ((∀ r ∈ l.map (warpRoot lam) ++ List.replicate m (lam : ℂ), ‖r‖ < 1) ↔
        ∀ r ∈ l, ‖r‖ < 1) := by
    intro l m hne
    constructor
    · intro h r hr
      exact (warpRoot_norm lam hl r (hne r hr)).1 (h _ (by
        rw [List.mem_append]
        exact .inl (List.mem_map.2 ⟨r, hr, rfl⟩)))
    · intro h r hr
      rcases List.mem_append.1 hr with hr | hr
      · obtain ⟨s, hs, rfl⟩ := List.mem_map.1 hr
        exact (warpRoot_norm lam hl s (hne s hs)).2 (h s hs)
      · rw [List.eq_of_mem_replicate hr, Complex.norm_real]
        exact hl
  refine ⟨gen _ _ fun r hr => h0 r (by simp [hr]), gen _ _ fun r hr => h0 r (by simp [hr]), ?_, ?_,
    rfl⟩
  · simp
    omega
  · simp
    omega

/-- If the roots come in conjugate pairs, so do the ones of the warped filter. -/
theorem C73_conjugates (lam : ℝ) (F G : Zpk) (h : warpFilter lam F = .ok G)
    (hz : (F.z.map (starRingEnd ℂ)).Perm F.z) (hp : (F.p.map (starRingEnd ℂ)).Perm F.p) :
    (G.z.map (starRingEnd ℂ)).Perm G.z ∧ (G.p.map (starRingEnd ℂ)).Perm G.p := by
  obtain ⟨_, _, rfl⟩ := ok_cases h
  have hc : ∀ r, (starRingEnd ℂ) (warpRoot lam r) = warpRoot lam ((starRingEnd ℂ) r) := by
    intro r
    unfold warpRoot
    simp
  have gen : ∀ (l : List ℂ) (m : ℕ), (l.map (starRingEnd ℂ)).Perm l →
      ((l.map (warpRoot lam) ++ List.replicate m (lam : ℂ)).map (starRingEnd ℂ)).Perm
        (l.map (warpRoot lam) ++ List.replicate m (lam : ℂ)) := by
    intro l m hl
    rw [List.map_append, List.map_replicate, Complex.conj_ofReal]
    refine List.Perm.append_right _ ?_
    have := hl.map (warpRoot lam)
    rw [List.map_map] at this ⊢
    convert this using 2
    funext r
    exact hc r
  exact ⟨gen _ _ hz, gen _ _ hp⟩

/-- The opposite factor undoes the warping, up to roots at the origin; the response comes back
exactly. -/
theorem C73_back (lam : ℝ) (F G : Zpk) (h : warpFilter lam F = .ok G) :
    ∃ H, warpFilter (-lam) G = .ok H ∧ ∀ w, response H w = response F w := by
  obtain ⟨hl, h0, rfl⟩ := ok_cases h
  have hk : (1 : ℂ) - lam ^ 2 ≠ 0 := by
    have h4 : (1 : ℝ) - lam ^ 2 ≠ 0 := by nlinarith [abs_lt.1 hl]
    exact_mod_cast h4
  have hr1 : ∀ r : ℂ, 1 + (lam : ℂ) * r ≠ 0 → 1 + ((-lam : ℝ) : ℂ) * warpRoot lam r ≠ 0 := by
    intro r hr
    have e : 1 + ((-lam : ℝ) : ℂ) * warpRoot lam r = (1 - lam ^ 2) / (1 + lam * r) := by
      unfold warpRoot
      push_cast
      field_simp
      ring
    rw [e]
    exact div_ne_zero hk hr
  have hlam : 1 + ((-lam : ℝ) : ℂ) * (lam : ℂ) ≠ 0 := by
    push_cast
    intro h
    exact hk (by linear_combination h)
  have hback : ∀ r : ℂ, 1 + (lam : ℂ) * r ≠ 0 → warpRoot (-lam) (warpRoot lam r) = r := by
    intro r hr
    have e : 1 + ((-lam : ℝ) : ℂ) * warpRoot lam r = (1 - lam ^ 2) / (1 + lam * r) := by
      unfold warpRoot
      push_cast
      field_simp
      ring
    rw [warpRoot, e, div_eq_iff (div_ne_zero hk hr)]
    unfold warpRoot
    push_cast
    field_simp
    ring
  have hback0 : warpRoot (-lam) (lam : ℂ) = 0 := by
    unfold warpRoot
    push_cast
    simp
  set G : Zpk := ⟨F.z.map (warpRoot lam) ++ List.replicate (F.p.length - F.z.length) (lam : ℂ),
        F.p.map (warpRoot lam) ++ List.replicate (F.z.length - F.p.length) (lam : ℂ), F.k⟩ with hG
  obtain ⟨H, hH⟩ := (C73_defined (-lam) G).1 (by rwa [abs_neg]) (by
    intro r hr
    rw [hG] at hr
    simp only [List.mem_append, List.mem_map, List.mem_replicate] at hr
    rcases hr with (⟨s, hs, rfl⟩ | ⟨_, rfl⟩) | (⟨s, hs, rfl⟩ | ⟨_, rfl⟩)
    · exact hr1 s (h0 s (by simp [hs]))
    · exact hlam
    · exact hr1 s (h0 s (by simp [hs]))
    · exact hlam)
  refine ⟨H, hH, fun w => ?_⟩
  obtain ⟨_, _, rfl⟩ := ok_cases hH
  have gen : ∀ (l : List ℂ) (m n : ℕ), n = 0 → (∀ r ∈ l, 1 + (lam : ℂ) * r ≠ 0) →
      (((l.map (warpRoot lam) ++ List.replicate m (lam : ℂ)).map (warpRoot (-lam)) ++
        List.replicate n ((-lam : ℝ) : ℂ)).map fun r => 1 - r * w).prod =
        (l.map fun r => 1 - r * w).prod := by
    intro l m n hn hne
    rw [hn, List.replicate_zero, List.append_nil, List.map_append, List.map_replicate, hback0,
      List.map_append, List.prod_append, List.map_replicate, List.prod_replicate, zero_mul, sub_zero,
      one_pow, mul_one, List.map_map, List.map_map]
    congr 1
    refine List.map_congr_left fun r hr => ?_
    simp only [Function.comp_apply]
    rw [hback r (hne r hr)]
  unfold response
  dsimp only
  rw [hG]
  dsimp only
  rw [gen _ _ _ (by simp; omega) fun r hr => h0 r (by simp [hr]),
    gen _ _ _ (by simp; omega) fun r hr => h0 r (by simp [hr])]

/-- The gain at zero frequency, which the mapping of the frequencies keeps in place, is not kept:
the filter `1 - w / 2` has gain 1/2 there, and the one warped with 1/2 has 2/5. -/
theorem C73_gain_changes : ∃ G, warpFilter (1 / 2) ⟨[1 / 2], [], 1⟩ = .ok G ∧
    allpassAt (1 / 2) 1 = 1 ∧ response ⟨[1 / 2], [], 1⟩ 1 = 1 / 2 ∧ response G 1 = 2 / 5 := by
  obtain ⟨G, hG⟩ := (C73_defined (1 / 2) ⟨[1 / 2], [], 1⟩).1 (by rw [abs_lt]; constructor <;> norm_num) (by
    intro r hr
    obtain rfl : r = 1 / 2 := by simpa using hr
    push_cast
    norm_num)
  refine ⟨G, hG, ?_, ?_, ?_⟩
  · unfold allpassAt
    push_cast
    norm_num
  · unfold response
    norm_num
  · obtain ⟨_, _, rfl⟩ := ok_cases hG
    unfold response warpRoot
    push_cast
    norm_num

example : ∃ G, warpFilter (-1 / 2) ⟨[1, -1], [Complex.I / 2, -Complex.I / 2, 0], 3⟩ = .ok G := by
  refine (C73_defined _ _).1 (by rw [abs_lt]; constructor <;> norm_num) ?_
  intro r hr h
  have : r.re = 2 := by
    have := congrArg Complex.re h
    simp at this
    linarith
  simp at hr
  rcases hr with rfl | rfl | rfl | rfl | rfl <;> (simp at this; try norm_num at this)

/-! ### Named factors -/

/-- The warping factor for the Bark scale of the publication, for the sampling rate in Hz (the
formula of the publication has it in kHz). -/
noncomputable def barkReference (fs : ℝ) : ℝ :=
  -(1.0674 * √(2 / Real.pi * Real.arctan (0.06583 * (fs / 1000))) - 0.1916)

/-- The one for the ERB scale. -/
noncomputable def erbReference (fs : ℝ) : ℝ :=
  -(0.7446 * √(2 / Real.pi * Real.arctan (0.1418 * (fs / 1000))) + 0.03237)

theorem root_range (x : ℝ) :
    0 ≤ √(2 / Real.pi * Real.arctan x) ∧ √(2 / Real.pi * Real.arctan x) ≤ 1 := by
  refine ⟨Real.sqrt_nonneg _, Real.sqrt_le_one.2 ?_⟩
  have h1 := Real.arctan_lt_pi_div_two x
  have hp := Real.pi_pos
  rw [div_mul_eq_mul_div, div_le_one hp]
  linarith

/-- Every factor that is accepted is inside the unit interval. -/
theorem C73_factor_range (w : Factor) (fs v : ℝ) (h : warpingFactor w fs = .ok v) :
    |v| < 1 := by
  have b1 := root_range (0.06583 * fs)
  have b2 := root_range (0.1418 * fs)
  cases w with
  | float u =>
    unfold warpingFactor at h
    dsimp only at h
    split_ifs at h with h1
    rw [← Except.ok.inj h]
    exact h1
  | text s =>
    unfold warpingFactor at h
    dsimp only at h
    split at h
    · exact nomatch h
    · split_ifs at h <;> rw [← Except.ok.inj h, abs_lt] <;> constructor <;> linarith [b1.1, b1.2, b2.1, b2.2]
  | other => exact nomatch h

/-- Numbers are returned as they are, and refused outside of the unit interval; other types than
`float` and text are refused. -/
theorem C73_factor_checked (v fs : ℝ) :
    (|v| < 1 → warpingFactor (.float v) fs = .ok v) ∧
      (¬ |v| < 1 → warpingFactor (.float v) fs = .error .assertionError) ∧
      warpingFactor .other fs = .error .typeError := by
  refine ⟨fun h => ?_, fun h => ?_, rfl⟩ <;> unfold warpingFactor <;> dsimp only
  · rw [if_pos h]
  · rw [if_neg h]

theorem named (fs : ℝ) :
    warpingFactor (.text "bark") fs = .ok (barkReference (1000 * fs)) ∧
    warpingFactor (.text "bark-") fs = .ok (-barkReference (1000 * fs)) ∧
    warpingFactor (.text "erb") fs = .ok (erbReference (1000 * fs)) ∧
    warpingFactor (.text "erb-") fs = .ok (-erbReference (1000 * fs)) := by
  have l1 : "bark".toLower.toList = ['b', 'a', 'r', 'k'] := by decide +kernel
  have l2 : "bark-".toLower.toList = ['b', 'a', 'r', 'k', '-'] := by decide +kernel
  have l3 : "erb".toLower.toList = ['e', 'r', 'b'] := by decide +kernel
  have l4 : "erb-".toLower.toList = ['e', 'r', 'b', '-'] := by decide +kernel
  have k1 : "bark".toList = ['b', 'a', 'r', 'k'] := by decide +kernel
  have k2 : "erb".toList = ['e', 'r', 'b'] := by decide +kernel
  have i1 : ['b', 'a', 'r', 'k'] <:+: ['b', 'a', 'r', 'k', '-'] := by decide
  have i2 : ¬ ['b', 'a', 'r', 'k'] <:+: ['e', 'r', 'b'] := by decide
  have i3 : ¬ ['b', 'a', 'r', 'k'] <:+: ['e', 'r', 'b', '-'] := by decide
  have i4 : ['e', 'r', 'b'] <:+: ['e', 'r', 'b', '-'] := by decide
  unfold warpingFactor barkReference erbReference
  simp only [l1, l2, l3, l4, k1, k2, i1, i2, i3, i4, List.infix_rfl]
  simp

/-- With the suffix `-`, the name gives the opposite factor, which undoes the warping. -/
theorem C73_named_inverse (fs : ℝ) (name : String) (h : name = "bark" ∨ name = "erb") :
    ∃ v, warpingFactor (.text name) fs = .ok v ∧ warpingFactor (.text (name ++ "-")) fs = .ok (-v) := by
  obtain ⟨h1, h2, h3, h4⟩ := named fs
  rcases h with rfl | rfl
  · exact ⟨_, h1, h2⟩
  · exact ⟨_, h3, h4⟩

theorem arctan_le_self (x : ℝ) (hx : 0 < x) : Real.arctan x ≤ x := by
  have h := Real.le_tan (x := Real.arctan x) (Real.arctan_nonneg.2 hx.le)
    (Real.arctan_lt_pi_div_two x)
  rwa [Real.tan_arctan] at h

theorem root_large (x : ℝ) (hx : 526 ≤ x) : 0.998 ≤ √(2 / Real.pi * Real.arctan x) := by
  have hx0 : 0 < x := by linarith
  have h1 : Real.arctan x = Real.pi / 2 - Real.arctan x⁻¹ := by
    rw [Real.arctan_inv_of_pos hx0]
    ring
  have h2 := arctan_le_self x⁻¹ (by positivity)
  have h3 : x⁻¹ ≤ 1 / 526 := by
    rw [inv_eq_one_div]
    exact one_div_le_one_div_of_le (by norm_num) hx
  have hp := Real.pi_gt_three
  have hp0 := Real.pi_pos
  refine Real.le_sqrt_of_sq_le ?_
  rw [h1, div_mul_eq_mul_div, le_div_iff₀ hp0]
  norm_num
  nlinarith

theorem root_small (x y c : ℝ) (hx : 0 < x) (hxy : x ≤ y) (hc : 0 ≤ c)
    (h : 1 - 0.6 * (y⁻¹ / √(1 + y⁻¹ ^ 2)) ≤ c ^ 2) : √(2 / Real.pi * Real.arctan x) ≤ c := by
  have hy : 0 < y := by linarith
  have h0 : Real.arctan x ≤ Real.arctan y := Real.arctan_strictMono.monotone hxy
  have h1 : Real.arctan y = Real.pi / 2 - Real.arctan y⁻¹ := by
    rw [Real.arctan_inv_of_pos hy]
    ring
  have h2 : y⁻¹ / √(1 + y⁻¹ ^ 2) ≤ Real.arctan y⁻¹ := by
    rw [← Real.sin_arctan]
    exact Real.sin_le (Real.arctan_nonneg.2 (by positivity))
  have hp := Real.pi_lt_d2
  have hp0 := Real.pi_pos
  rw [Real.sqrt_le_left hc]
  refine le_trans ?_ h
  rw [div_mul_eq_mul_div, div_le_iff₀ hp0]
  have h3 : 0 ≤ y⁻¹ / √(1 + y⁻¹ ^ 2) := by positivity
  nlinarith

/-- The names do not give the factors of the publication: its formulas need the sampling rate in
kHz, and the code puts it there in Hz. For every sampling rate from 8 kHz to 48 kHz, the factor is
too close to -1. -/
theorem C73_named_factors_wrong (fs : ℝ) (h1 : 8000 ≤ fs) (h2 : fs ≤ 48000) :
    (∃ v, warpingFactor (.text "bark") fs = .ok v ∧ v < barkReference fs - 0.09) ∧
      ∃ v, warpingFactor (.text "erb") fs = .ok v ∧ v < erbReference fs - 0.02 := by
  obtain ⟨n1, -, n3, -⟩ := named fs
  refine ⟨⟨_, n1, ?_⟩, ⟨_, n3, ?_⟩⟩
  · unfold barkReference
    have a := root_large (0.06583 * (1000 * fs / 1000)) (by linarith)
    have b := root_small (0.06583 * (fs / 1000)) 3.16 0.91 (by positivity) (by linarith)
      (by norm_num) (by
        have : √(1 + (3.16 : ℝ)⁻¹ ^ 2) ≤ 1.05 := by
          rw [Real.sqrt_le_left (by norm_num)]
          norm_num
        have h3 : (3.16 : ℝ)⁻¹ / 1.05 ≤ 3.16⁻¹ / √(1 + (3.16 : ℝ)⁻¹ ^ 2) :=
          div_le_div_of_nonneg_left (by positivity) (Real.sqrt_pos.2 (by positivity)) this
        norm_num at h3 ⊢
        linarith)
    linarith
  · unfold erbReference
    have a := root_large (0.1418 * (1000 * fs / 1000)) (by linarith)
    have b := root_small (0.1418 * (fs / 1000)) 6.81 0.957 (by positivity) (by linarith)
      (by norm_num) (by
        have : √(1 + (6.81 : ℝ)⁻¹ ^ 2) ≤ 1.011 := by
          rw [Real.sqrt_le_left (by norm_num)]
          norm_num
        have h3 : (6.81 : ℝ)⁻¹ / 1.011 ≤ 6.81⁻¹ / √(1 + (6.81 : ℝ)⁻¹ ^ 2) :=
          div_le_div_of_nonneg_left (by positivity) (Real.sqrt_pos.2 (by positivity)) this
        norm_num at h3 ⊢
        linarith)
    linarith

example : (8000 : ℝ) ≤ 44100 ∧ (44100 : ℝ) ≤ 48000 := by norm_num

end Verif.Props.C73
