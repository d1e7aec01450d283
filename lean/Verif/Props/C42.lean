import Verif.Model.Interp
import Verif.Lemmas.Spectrum
import Verif.Lemmas.LFilter
import Mathlib.Analysis.SpecialFunctions.Trigonometric.Basic

/-!
# C42: interpolating a spectrum at its own bins returns the stored values, and normalising
reaches 0 dB
-/

set_option linter.unusedSectionVars false

namespace Verif.Spectrum

open Complex LFilter

section interp

variable {K : Type} [Field K] [LinearOrder K] [IsStrictOrderedRing K]

/-- Number of entries not above `x`. -/
theorem countLe_spec (xp : List K) (h : Ascending xp) (x : K) :
    (xp.takeWhile fun f => decide (f ≤ x)).length ≤ xp.length ∧
    ∀ k < xp.length, (k < (xp.takeWhile fun f => decide (f ≤ x)).length ↔ xp.getD k 0 ≤ x) := by
  have := takeWhile_length xp (fun f => decide (f ≤ x)) (by
    intro i j hij hj hh
    simp only [decide_eq_true_eq] at hh ⊢
    exact le_trans (h.le hij hj) hh)
  simpa using this

/-- Between two neighbouring points the interpolation is the straight line through them. -/
theorem interp_segment (xp fp : List K) (h : Ascending xp) (left right x : K) (j : ℕ)
    (hj : j + 1 < xp.length) (h1 : xp.getD j 0 ≤ x) (h2 : x < xp.getD (j + 1) 0) :
    interp xp fp left right x = fp.getD j 0 + (fp.getD (j + 1) 0 - fp.getD j 0) /
      (xp.getD (j + 1) 0 - xp.getD j 0) * (x - xp.getD j 0) := by
  obtain ⟨hc1, hc2⟩ := countLe_spec xp h x
  have ha := (hc2 j (by omega)).mpr h1
  have hb : ¬ j + 1 < (xp.takeWhile fun f => decide (f ≤ x)).length := by
    rw [hc2 (j + 1) hj]
    exact not_le.mpr h2
  have hcount : (xp.takeWhile fun f => decide (f ≤ x)).length - 1 = j := by omega
  unfold interp
  rw [if_neg (not_lt.mpr (le_trans (h.le (Nat.zero_le j) (by omega)) h1)),
    if_neg (not_lt.mpr (le_trans h2.le (h.le (by omega) (by omega))))]
  simp only [hcount]
  rw [if_neg (by omega)]

/-- At a stored point the interpolation returns the stored value. -/
theorem C42_interp_at_bin (xp fp : List K) (h : Ascending xp) (left right : K) (k : ℕ)
    (hk : k < xp.length) : interp xp fp left right (xp.getD k 0) = fp.getD k 0 := by
  rcases Nat.lt_or_ge (k + 1) xp.length with hk1 | hk1
  · rw [interp_segment xp fp h left right _ k hk1 le_rfl (h k (k + 1) (by omega) hk1)]
    ring
  · obtain ⟨hc1, hc2⟩ := countLe_spec xp h (xp.getD k 0)
    have ha := (hc2 k hk).mpr le_rfl
    have hcount : (xp.takeWhile fun f => decide (f ≤ xp.getD k 0)).length - 1 = k := by omega
    unfold interp
    rw [if_neg (not_lt.mpr (h.le (Nat.zero_le k) hk)),
      if_neg (not_lt.mpr (h.le (i := k) (j := xp.length - 1) (by omega) (by omega)))]
    simp only [hcount]
    rw [if_pos (by omega)]

/-- Elsewhere the interpolation stays between the two neighbouring values. -/
theorem C42_interp_between (xp fp : List K) (h : Ascending xp) (left right x : K) (j : ℕ)
    (hj : j + 1 < xp.length) (h1 : xp.getD j 0 ≤ x) (h2 : x ≤ xp.getD (j + 1) 0) :
    min (fp.getD j 0) (fp.getD (j + 1) 0) ≤ interp xp fp left right x ∧
    interp xp fp left right x ≤ max (fp.getD j 0) (fp.getD (j + 1) 0) := by
  rcases lt_or_eq_of_le h2 with h3 | h3
  · rw [interp_segment xp fp h left right x j hj h1 h3]
    have hd : 0 < xp.getD (j + 1) 0 - xp.getD j 0 := sub_pos.mpr (h j (j + 1) (by omega) hj)
    set t := (x - xp.getD j 0) / (xp.getD (j + 1) 0 - xp.getD j 0) with ht
    have ht0 : 0 ≤ t := div_nonneg (sub_nonneg.mpr h1) hd.le
    have ht1 : t ≤ 1 := by
      rw [ht, div_le_one hd]
      linarith
    have he : fp.getD j 0 + (fp.getD (j + 1) 0 - fp.getD j 0) /
        (xp.getD (j + 1) 0 - xp.getD j 0) * (x - xp.getD j 0) =
        (1 - t) * fp.getD j 0 + t * fp.getD (j + 1) 0 := by
      rw [ht]
      field_simp
      ring
    rw [he]
    constructor
    · have ha := mul_le_mul_of_nonneg_left (min_le_left (fp.getD j 0) (fp.getD (j + 1) 0))
        (sub_nonneg.mpr ht1)
      have hb := mul_le_mul_of_nonneg_left (min_le_right (fp.getD j 0) (fp.getD (j + 1) 0)) ht0
      linarith
    · have ha := mul_le_mul_of_nonneg_left (le_max_left (fp.getD j 0) (fp.getD (j + 1) 0))
        (sub_nonneg.mpr ht1)
      have hb := mul_le_mul_of_nonneg_left (le_max_right (fp.getD j 0) (fp.getD (j + 1) 0)) ht0
      linarith
  · rw [h3, C42_interp_at_bin xp fp h left right (j + 1) hj]
    exact ⟨min_le_right _ _, le_max_right _ _⟩

theorem getD_map_mul (fp : List K) (a : K) (k : ℕ) :
    (fp.map (a * ·)).getD k 0 = a * fp.getD k 0 := by
  simp only [List.getD_eq_getElem?_getD, List.getElem?_map]
  cases fp[k]? <;> simp

/-- The interpolation is homogeneous. -/
theorem interp_scale (xp fp : List K) (a left right x : K) :
    interp xp (fp.map (a * ·)) (a * left) (a * right) x = a * interp xp fp left right x := by
  unfold interp
  split_ifs
  · rfl
  · rfl
  · simp only [getD_map_mul]
    split_ifs
    · rfl
    · ring

end interp

/-! ### The stored bins -/

theorem unwrapCorr_turns (dd : ℝ) : ∃ m : ℤ, unwrapCorr dd = m * (2 * Real.pi) := by
  unfold unwrapCorr
  simp only
  split_ifs with h1 h2
  · exact ⟨0, by simp⟩
  · refine ⟨1 - ⌊(dd + Real.pi) / (2 * Real.pi)⌋, ?_⟩
    have := h2.1
    push_cast
    linarith
  · refine ⟨-⌊(dd + Real.pi) / (2 * Real.pi)⌋, ?_⟩
    push_cast
    ring

/-- Unwrapping adds whole turns. -/
theorem unwrap_turns (p : ℕ → ℝ) (k : ℕ) : ∃ m : ℤ, unwrap p k = p k + m * (2 * Real.pi) := by
  unfold unwrap
  suffices h : ∃ m : ℤ, ∑ i ∈ Finset.range k, unwrapCorr (p (i + 1) - p i) = m * (2 * Real.pi) by
    obtain ⟨m, hm⟩ := h
    exact ⟨m, by rw [hm]⟩
  induction k with
  | zero => exact ⟨0, by simp⟩
  | succ k ih =>
    obtain ⟨m, hm⟩ := ih
    obtain ⟨m', hm'⟩ := unwrapCorr_turns (p (k + 1) - p k)
    refine ⟨m + m', ?_⟩
    rw [Finset.sum_range_succ, hm, hm']
    push_cast
    ring

theorem exp_unwrap (x : ℕ → ℂ) (k : ℕ) :
    (‖x k‖ : ℂ) * exp (I * (unwrap (fun i => (x i).arg) k : ℝ)) = x k := by
  obtain ⟨m, hm⟩ := unwrap_turns (fun i => (x i).arg) k
  rw [hm]
  have : I * (((x k).arg + m * (2 * Real.pi) : ℝ) : ℂ) = (x k).arg * I + m * (2 * Real.pi * I) := by
    push_cast
    ring
  rw [this, exp_add, exp_int_mul_two_pi_mul_I, mul_one, norm_mul_exp_arg_mul_I]

theorem column_getD (n : ℕ) (f : ℕ → ℝ) (k : ℕ) (hk : k < n) : (column n f).getD k 0 = f k := by
  unfold column
  rw [List.getD_eq_getElem _ _ (by simpa using hk)]
  simp

/-- The value that the stored bin `v` stands for in the given output type. -/
noncomputable def stored (o : Output) (v : ℂ) : ℂ :=
  match o with
  | .power => ((‖v‖ ^ 2 : ℝ) : ℂ)
  | .magnitude => ((‖v‖ : ℝ) : ℂ)
  | .complex => v

/-- At a stored bin the stored value is returned, for all domains and edge handlings; complex
output only for the complex domains. -/
theorem C42_own_bins_partial (dom : Domain) (e : Edges) (o : Output) (freqs : List ℝ)
    (h : Ascending freqs) (x : ℕ → ℂ) (k : ℕ) (hk : k < freqs.length)
    (ho : o = .complex → dom = .complex ∨ dom = .magnitudePhase) :
    convert dom o (interpolated dom e freqs x (freqs.getD k 0)) = stored o (x k) := by
  have hI : ∀ d : ℕ → ℝ, ∀ l r : ℝ, interp freqs (column freqs.length d) l r (freqs.getD k 0) =
      d k := fun d l r => by rw [C42_interp_at_bin freqs _ h l r k hk, column_getD _ _ _ hk]
  unfold interpolated
  simp only [hI]
  cases dom with
  | power =>
    cases o with
    | power => simp [convert, stored, interpData]
    | magnitude =>
      simp only [convert, stored, interpData, ofReal_re]
      rw [Real.sqrt_sq (norm_nonneg _)]
    | complex => exact absurd (ho rfl) (by simp)
  | magnitude =>
    cases o with
    | power => simp [convert, stored, interpData]
    | magnitude => simp [convert, stored, interpData]
    | complex => exact absurd (ho rfl) (by simp)
  | complex =>
    have hx : ((interpData .complex x k : ℝ) : ℂ) + I * ((interpDataImag .complex x k : ℝ) : ℂ) =
        x k := by
      simp only [interpData, interpDataImag]
      rw [mul_comm]
      exact re_add_im (x k)
    simp only [hx]
    cases o <;> simp [convert, stored]
  | magnitudePhase =>
    have hx : ((interpData .magnitudePhase x k : ℝ) : ℂ) *
        exp (I * ((interpDataImag .magnitudePhase x k : ℝ) : ℂ)) = x k := by
      simp only [interpData, interpDataImag]
      exact exp_unwrap x k
    simp only [hx]
    cases o <;> simp [convert, stored]

/-- Complex output in the power domain (the default) returns the power of the bin. -/
theorem C42_complex_output_wrong (e : Edges) (freqs : List ℝ) (h : Ascending freqs) (x : ℕ → ℂ)
    (k : ℕ) (hk : k < freqs.length) :
    convert .power .complex (interpolated .power e freqs x (freqs.getD k 0)) =
      ((‖x k‖ ^ 2 : ℝ) : ℂ) := by
  unfold interpolated convert
  simp only
  rw [C42_interp_at_bin freqs _ h _ _ k hk, column_getD _ _ _ hk]
  rfl

/-- Between two bins the interpolated magnitude stays between the magnitudes of the two bins
(power and magnitude domains). -/
theorem C42_magnitude_between (e : Edges) (freqs : List ℝ) (h : Ascending freqs) (x : ℕ → ℂ)
    (f : ℝ) (j : ℕ) (hj : j + 1 < freqs.length) (h1 : freqs.getD j 0 ≤ f)
    (h2 : f ≤ freqs.getD (j + 1) 0) (dom : Domain) (hd : dom = .power ∨ dom = .magnitude) :
    ∃ m : ℝ, convert dom .magnitude (interpolated dom e freqs x f) = (m : ℂ) ∧
      min ‖x j‖ ‖x (j + 1)‖ ≤ m ∧ m ≤ max ‖x j‖ ‖x (j + 1)‖ := by
  rcases hd with rfl | rfl
  · have hb := C42_interp_between freqs (column freqs.length (interpData .power x)) h
      (edgeValues e freqs.length (interpData .power x)).1
      (edgeValues e freqs.length (interpData .power x)).2 f j hj h1 h2
    rw [column_getD _ _ _ (by omega), column_getD _ _ _ hj] at hb
    simp only [interpData] at hb
    have hmin : min (‖x j‖ ^ 2) (‖x (j + 1)‖ ^ 2) = (min ‖x j‖ ‖x (j + 1)‖) ^ 2 := by
      rcases le_total ‖x j‖ ‖x (j + 1)‖ with hle | hle
      · rw [min_eq_left hle, min_eq_left (pow_le_pow_left₀ (norm_nonneg _) hle 2)]
      · rw [min_eq_right hle, min_eq_right (pow_le_pow_left₀ (norm_nonneg _) hle 2)]
    have hmax : max (‖x j‖ ^ 2) (‖x (j + 1)‖ ^ 2) = (max ‖x j‖ ‖x (j + 1)‖) ^ 2 := by
      rcases le_total ‖x j‖ ‖x (j + 1)‖ with hle | hle
      · rw [max_eq_right hle, max_eq_right (pow_le_pow_left₀ (norm_nonneg _) hle 2)]
      · rw [max_eq_left hle, max_eq_left (pow_le_pow_left₀ (norm_nonneg _) hle 2)]
    rw [hmin, hmax] at hb
    refine ⟨_, rfl, ?_, ?_⟩
    · refine Real.le_sqrt_of_sq_le ?_
      simpa [interpolated] using hb.1
    · refine Real.sqrt_le_iff.mpr ⟨le_max_of_le_left (norm_nonneg _), ?_⟩
      simpa [interpolated] using hb.2
  · have hb := C42_interp_between freqs (column freqs.length (interpData .magnitude x)) h
      (edgeValues e freqs.length (interpData .magnitude x)).1
      (edgeValues e freqs.length (interpData .magnitude x)).2 f j hj h1 h2
    rw [column_getD _ _ _ (by omega), column_getD _ _ _ hj] at hb
    exact ⟨_, rfl, hb.1, hb.2⟩

/-! ### Normalisation -/

theorem column_scale (n : ℕ) (a : ℝ) (d d' : ℕ → ℝ) (h : ∀ k, d' k = a * d k) :
    column n d' = (column n d).map (a * ·) := by
  unfold column
  rw [List.map_map]
  exact List.map_congr_left fun k _ => h k

/-- Whether the frequency is inside the range of the spectrum. -/
def Inside (freqs : List ℝ) (f : ℝ) : Prop :=
  freqs.getD 0 0 ≤ f ∧ f ≤ freqs.getD (freqs.length - 1) 0

theorem interp_inside (xp fp : List ℝ) (f : ℝ) (h : Inside xp f) (l r l' r' : ℝ) :
    interp xp fp l r f = interp xp fp l' r' f := by
  unfold interp
  rw [if_neg (not_lt.mpr h.1), if_neg (not_lt.mpr h.2), if_neg (not_lt.mpr h.1),
    if_neg (not_lt.mpr h.2)]

/-- Dividing the spectrum by a positive number divides the interpolated magnitude by it. -/
theorem magnitude_scale (dom : Domain) (e : Edges) (freqs : List ℝ) (x : ℕ → ℂ) (f a : ℝ)
    (ha : 0 < a) (hin : e = .onePad → Inside freqs f) :
    convert dom .magnitude (interpolated dom e freqs (fun k => x k / a) f) =
      convert dom .magnitude (interpolated dom e freqs x f) / a := by
  -- all arrays are scaled by `b`, the phases are not
  have hnorm : ∀ k, ‖x k / (a : ℂ)‖ = a⁻¹ * ‖x k‖ := by
    intro k
    rw [norm_div, norm_real, Real.norm_of_nonneg ha.le, div_eq_inv_mul]
  have key : ∀ (b : ℝ) (d d' : ℕ → ℝ) (g g' : ℕ → ℝ), (∀ k, d' k = b * d k) →
      (∀ k, g' k = b * g k) →
      interp freqs (column freqs.length d') (edgeValues e freqs.length g').1
        (edgeValues e freqs.length g').2 f =
      b * interp freqs (column freqs.length d) (edgeValues e freqs.length g).1
        (edgeValues e freqs.length g).2 f := by
    intro b d d' g g' hd hg
    rw [column_scale _ b d d' hd]
    cases e with
    | zeroPad =>
      have := interp_scale freqs (column freqs.length d) b 0 0 f
      rw [mul_zero] at this
      exact this
    | onePad =>
      rw [← interp_scale]
      exact interp_inside _ _ _ (hin rfl) _ _ _ _
    | extend =>
      simp only [edgeValues, hg]
      exact interp_scale _ _ _ _ _ _
    | error =>
      simp only [edgeValues, hg]
      exact interp_scale _ _ _ _ _ _
  have hane : (a : ℂ) ≠ 0 := by exact_mod_cast ha.ne'
  cases dom with
  | power =>
    have hd : ∀ k, interpData .power (fun k => x k / a) k =
        (a⁻¹) ^ 2 * interpData .power x k := by
      intro k
      simp only [interpData, hnorm]
      ring
    simp only [interpolated, convert, ofReal_re]
    rw [key _ _ _ _ _ hd hd, Real.sqrt_mul (by positivity), Real.sqrt_sq (by positivity)]
    push_cast
    rw [div_eq_inv_mul]
  | magnitude =>
    have hd : ∀ k, interpData .magnitude (fun k => x k / a) k =
        a⁻¹ * interpData .magnitude x k := fun k => hnorm k
    simp only [interpolated, convert]
    rw [key _ _ _ _ _ hd hd]
    push_cast
    rw [div_eq_inv_mul]
  | complex =>
    have hd : ∀ k, interpData .complex (fun k => x k / a) k =
        a⁻¹ * interpData .complex x k := by
      intro k
      simp only [interpData, div_ofReal_re]
      rw [div_eq_inv_mul]
    have hi : ∀ k, interpDataImag .complex (fun k => x k / a) k =
        a⁻¹ * interpDataImag .complex x k := by
      intro k
      simp only [interpDataImag, div_ofReal_im]
      rw [div_eq_inv_mul]
    simp only [interpolated, convert]
    rw [key _ _ _ _ _ hd hd, key _ _ _ _ _ hi hd]
    have : ∀ p q : ℝ, ((a⁻¹ * p : ℝ) : ℂ) + I * ((a⁻¹ * q : ℝ) : ℂ) = ((p : ℂ) + I * q) / a := by
      intro p q
      push_cast
      field_simp
    rw [this, norm_div, norm_real, Real.norm_of_nonneg ha.le]
    push_cast
    rfl
  | magnitudePhase =>
    have hd : ∀ k, interpData .magnitudePhase (fun k => x k / a) k =
        a⁻¹ * interpData .magnitudePhase x k := fun k => hnorm k
    have hexp : ∀ t : ℝ, ‖exp (I * (t : ℂ))‖ = 1 := by
      intro t
      rw [mul_comm]
      exact norm_exp_ofReal_mul_I t
    simp only [interpolated, convert]
    rw [key _ _ _ _ _ hd hd, norm_mul, norm_mul, hexp, hexp, mul_one, mul_one]
    simp only [norm_real, Real.norm_eq_abs]
    rw [abs_mul, abs_of_pos (inv_pos.mpr ha)]
    push_cast
    rw [div_eq_inv_mul]

/-- Normalising divides every bin of a channel by one number: the interpolated magnitude of
the channel, or with a reference channel the magnitude of that one for all channels (so that
the ratios between channels are kept).  A reference channel that does not exist is rejected. -/
theorem C42_same_divisor (dom : Domain) (e : Edges) (isMag : Bool) (freqs : List ℝ)
    (channels : ℕ) (x : ℕ → ℕ → ℂ) (f : ℝ) (ref : Option ℕ) :
    (∀ y, normalize dom e isMag freqs channels x f ref = .ok y →
      ∃ v : ℕ → ℂ, getInterpolated dom e .magnitude isMag freqs channels x f = .ok v ∧
        ∀ c k, y c k = x c k / v (ref.getD c)) ∧
    (∀ r, ref = some r → channels ≤ r →
      ∃ er, normalize dom e isMag freqs channels x f ref = .error er) := by
  unfold normalize
  cases h : getInterpolated dom e .magnitude isMag freqs channels x f with
  | error er => exact ⟨fun y hy => (nomatch hy), fun _ _ _ => ⟨_, rfl⟩⟩
  | ok v =>
    cases ref with
    | none =>
      refine ⟨fun y hy => ⟨v, rfl, fun c k => ?_⟩, fun r hr => by cases hr⟩
      cases hy
      rfl
    | some r =>
      refine ⟨fun y hy => ⟨v, rfl, fun c k => ?_⟩, fun r' hr hc => ?_⟩
      · dsimp only at hy
        split_ifs at hy
        cases hy
        rfl
      · cases hr
        dsimp only
        rw [if_neg (by omega)]
        exact ⟨_, rfl⟩

/-- After normalising at `f` the interpolated magnitude at `f` is 1 for every channel (or for
the reference channel), provided it was positive; for edges padded with ones the frequency has
to be inside the range. -/
theorem C42_normalized (dom : Domain) (e : Edges) (isMag : Bool) (freqs : List ℝ) (channels : ℕ)
    (x y : ℕ → ℕ → ℂ) (f : ℝ) (ref : Option ℕ) (hin : e = .onePad → Inside freqs f)
    (hn : normalize dom e isMag freqs channels x f ref = .ok y)
    (hpos : ∀ c < channels, ∃ m : ℝ, 0 < m ∧
      convert dom .magnitude (interpolated dom e freqs (x c) f) = m) :
    ∃ v, getInterpolated dom e .magnitude isMag freqs channels y f = .ok v ∧
      match ref with
      | none => ∀ c < channels, v c = 1
      | some r => v r = 1 := by
  unfold normalize getInterpolated at hn
  unfold getInterpolated
  rw [if_neg (by simp)] at hn ⊢
  split_ifs at hn ⊢ with h1 h2
  refine ⟨_, rfl, ?_⟩
  have hdiv : ∀ c m, 0 < m → convert dom .magnitude (interpolated dom e freqs (x c) f) =
      ((m : ℝ) : ℂ) → convert dom .magnitude (interpolated dom e freqs
        (fun k => x c k / (m : ℂ)) f) = 1 := by
    intro c m hm hcm
    rw [magnitude_scale dom e freqs (x c) f m hm hin, hcm]
    exact div_self (by exact_mod_cast hm.ne')
  cases ref with
  | none =>
    simp only at hn ⊢
    cases hn
    intro c hc
    obtain ⟨m, hm, hcm⟩ := hpos c hc
    simp only [hcm]
    exact hdiv c m hm hcm
  | some r =>
    simp only at hn ⊢
    split_ifs at hn with hr
    cases hn
    obtain ⟨m, hm, hcm⟩ := hpos r hr
    simp only [hcm]
    exact hdiv r m hm hcm

/-- With several channels and edge handling `extend` or `error` the linear scheme raises for
every frequency, also inside the range. -/
theorem C42_extend_raises (dom : Domain) (o : Output) (freqs : List ℝ) (channels : ℕ)
    (hc : 2 ≤ channels) (x : ℕ → ℕ → ℂ) (f : ℝ) :
    getInterpolated dom .extend o false freqs channels x f = .error .typeError := by
  unfold getInterpolated
  rw [if_neg (by simp), if_neg (by simp), if_pos ⟨Or.inl rfl, by omega⟩]

/-- Concrete case: two bins, normalised in between. -/
example : Ascending ([1, 3] : List ℝ) ∧ Inside ([1, 3] : List ℝ) 2 ∧
    ∃ m : ℝ, 0 < m ∧ convert .magnitude .magnitude
      (interpolated .magnitude .zeroPad [1, 3] (fun _ => 2) 2) = m := by
  have hasc : Ascending ([1, 3] : List ℝ) := by
    intro i j hij hj
    have hj' : j < 2 := hj
    obtain rfl : j = 1 := by omega
    obtain rfl : i = 0 := by omega
    norm_num
  refine ⟨hasc, ⟨by norm_num, by norm_num⟩, 2, by norm_num, ?_⟩
  obtain ⟨m, hm, h1, h2⟩ := C42_magnitude_between .zeroPad [1, 3] hasc (fun _ => 2) 2 0
    (by norm_num) (by norm_num) (by norm_num) .magnitude (Or.inr rfl)
  rw [hm]
  simp only [min_self, max_self, Complex.norm_ofNat] at h1 h2
  rw [le_antisymm h2 h1]

end Verif.Spectrum
