import Verif.Props.C82
import Mathlib.Tactic.IntervalCases

/-!
# C82: where the estimates are wrong, and examples
-/

namespace Verif.TransferEstimate

open CSM Scaling Finset DFT

theorem csqrt_neg (a : ℝ) (ha : 0 ≤ a) : csqrt ((-a : ℝ) : ℂ) = Complex.I * ((√a : ℝ) : ℂ) := by
  have h := Complex.ofReal_cpow_of_nonpos (x := -a) (by linarith) (1 / 2)
  unfold csqrt
  rw [h]
  push_cast
  rw [neg_neg, show Real.pi * Complex.I * (1 / 2) = Real.pi / 2 * Complex.I by ring,
    Complex.exp_pi_div_two_mul_I]
  have := csqrt_nonneg a ha
  unfold csqrt at this
  rw [this, mul_comm]

theorem csqrt_norm (z : ℂ) : ‖csqrt z‖ ^ 2 = ‖z‖ := by
  rw [← norm_pow, csqrt_sq]

/-- The periodograms with the scalings of transforms. -/
theorem welch_fft {p : Params} (h : Valid p) (ha : p.average = .mean) {s : Scaling}
    (hs : physical s = false) (x y : List ℝ) (hl : x.length = y.length) (hL : 0 < x.length)
    (k : ℕ) : ∃ t : ℝ, 0 < t ∧ welch p s x none k = ((√(t * auto p x k) : ℝ) : ℂ) ∧
      welch p s y none k = ((√(t * auto p y k) : ℝ) : ℂ) ∧
      welch p s x (some y) k = csqrt (t * cross p x y k) ∧
      welch p s y (some x) k = csqrt (t * cross p y x k) := by
  have hamp : s.isAmplitude = true := by cases s <;> simp [physical] at hs <;> rfl
  have ht := total_pos_fft h hs hL k
  have hA := auto_nonneg p x k
  have hB := auto_nonneg p y k
  refine ⟨_, ht, ?_, ?_, ?_, ?_⟩
  · rw [welch_auto h ha, hamp, if_pos rfl, csqrt_nonneg _ (by positivity)]
  · rw [welch_auto h ha, hamp, if_pos rfl, ← hl, csqrt_nonneg _ (by positivity)]
  · rw [welch_cross h ha s x y hl, hamp, if_pos rfl]
  · rw [welch_cross h ha s y x hl.symm, hamp, if_pos rfl, ← hl]

/-- **C82**, negation: with the scalings of transforms, among them the default of every signal, an
output that is the input times `g > 0` is estimated as the square root of `g` in all modes. -/
theorem C82_default_scaling_wrong (output input : Sig) (p : Params) (hi : input.WF)
    (ho : output.WF) (s : Scaling) (hs : physical s = false) (ha : p.average = .mean)
    (mode : Mode) (r : Result) (hr : transferFunction output input p s mode = .ok r)
    (c : ℕ) (hc : c < output.n) (k : ℕ) (hx : auto p (inputOf input c) k ≠ 0)
    (g : ℝ) (hg : 0 < g) (hm : Mixed g (inputOf input c) [] (output.x c)) :
    r.tf.val k c = some ((√g : ℝ) : ℂ) := by
  have h := (C82_accepted_iff output input p hi s mode).mp ⟨r, hr⟩
  have hl : (inputOf input c).length = (output.x c).length := by
    rw [inputOf_length h hi hc, ho.2 c hc, h.length]
  rw [result h hi] at hr
  cases hr
  have hnil : ∀ z, cross p z [] k = 0 := fun z => by
    unfold cross segBin rfft dft detrended segmentMean segment
    simp
  obtain ⟨t, ht, exx, eyy, exy, eyx⟩ := welch_fft (p := { p with fs := input.fs }) h.valid ha hs
    (inputOf input c) (output.x c) hl (by rw [inputOf_length h hi hc]; exact hi.1) k
  change welch _ s _ none k = ((√(t * auto p (inputOf input c) k) : ℝ) : ℂ) at exx
  change welch _ s _ none k = ((√(t * auto p (output.x c) k) : ℝ) : ℂ) at eyy
  change welch _ s _ _ k = csqrt (t * cross p (inputOf input c) (output.x c) k) at exy
  change welch _ s _ _ k = csqrt (t * cross p (output.x c) (inputOf input c) k) at eyx
  have hA : 0 < auto p (inputOf input c) k := (auto_nonneg _ _ _).lt_of_ne' hx
  set A := auto p (inputOf input c) k with hAA
  have e1 : cross p (inputOf input c) (output.x c) k = g * A := by
    rw [cross_mixed p g _ _ _ _ hm, hnil, add_zero, cross_self]
  have e1' : cross p (output.x c) (inputOf input c) k = g * A := by
    rw [cross_symm p _ _ hl, e1, map_mul, Complex.conj_ofReal, Complex.conj_ofReal]
  have e2 : auto p (output.x c) k = g ^ 2 * A := by
    have : (auto p (output.x c) k : ℂ) = g ^ 2 * A := by
      rw [← cross_self, cross_mixed p g _ _ _ _ hm, hnil, add_zero, e1']
      ring
    exact_mod_cast this
  have hgA : csqrt (t * (g * A)) = ((√g * √(t * A) : ℝ) : ℂ) := by
    rw [← Real.sqrt_mul hg.le, ← csqrt_nonneg _ (by positivity)]
    push_cast
    congr 1
    ring
  have hq : √(t * (g ^ 2 * A)) = g * √(t * A) := by
    rw [show t * (g ^ 2 * A) = g ^ 2 * (t * A) by ring, Real.sqrt_mul (by positivity),
      Real.sqrt_sq hg.le]
  rw [e1, hgA] at exy
  rw [e1', hgA] at eyx
  rw [e2, hq] at eyy
  have hsA : 0 < √(t * A) := Real.sqrt_pos.mpr (by positivity)
  have hsg : 0 < √g := Real.sqrt_pos.mpr hg
  have hgg : g = √g * √g := (Real.mul_self_sqrt hg.le).symm
  have n1 : ((√(t * A) : ℝ) : ℂ) ≠ 0 := by exact_mod_cast hsA.ne'
  have n2 : ((√g * √(t * A) : ℝ) : ℂ) ≠ 0 := by exact_mod_cast (mul_pos hsg hsA).ne'
  show entry mode _ s (inputOf input c) (output.x c) k = _
  unfold entry
  dsimp only
  rw [exx, eyy, exy, eyx]
  cases mode
  · dsimp only
    rw [div, if_neg n1, ← Complex.ofReal_div, mul_div_cancel_right₀ _ hsA.ne']
  · dsimp only
    rw [div, if_neg n2, ← Complex.ofReal_div, mul_div_mul_right _ _ hsA.ne', Real.div_sqrt]
  · dsimp only
    have n3 : ((‖((√g * √(t * A) : ℝ) : ℂ)‖ : ℝ) : ℂ) ≠ 0 := by
      exact_mod_cast norm_ne_zero_iff.mpr n2
    rw [div, if_neg n3, div, if_neg n1]
    dsimp only
    rw [Complex.norm_real, Real.norm_eq_abs, abs_of_pos (mul_pos hsg hsA), div_self n2, one_mul,
      ← Complex.ofReal_div, mul_div_cancel_right₀ _ hsA.ne', csqrt_nonneg _ hg.le]

/-- **C82**, negation: with these scalings inverting the polarity (and scaling by `g`) is not estimated as a
negative number: `H1` is `i √g` and `H2` is `-i √g`. -/
theorem C82_polarity_wrong (output input : Sig) (p : Params) (hi : input.WF)
    (ho : output.WF) (s : Scaling) (hs : physical s = false) (ha : p.average = .mean)
    (mode : Mode) (r : Result) (hr : transferFunction output input p s mode = .ok r)
    (c : ℕ) (hc : c < output.n) (k : ℕ) (hx : auto p (inputOf input c) k ≠ 0)
    (g : ℝ) (hg : 0 < g) (hm : Mixed (-g) (inputOf input c) [] (output.x c)) :
    (mode = .h1 → r.tf.val k c = some (Complex.I * (√g : ℝ))) ∧
    (mode = .h2 → r.tf.val k c = some (-Complex.I * (√g : ℝ))) := by
  have h := (C82_accepted_iff output input p hi s mode).mp ⟨r, hr⟩
  have hl : (inputOf input c).length = (output.x c).length := by
    rw [inputOf_length h hi hc, ho.2 c hc, h.length]
  rw [result h hi] at hr
  cases hr
  have hnil : ∀ z, cross p z [] k = 0 := fun z => by
    unfold cross segBin rfft dft detrended segmentMean segment
    simp
  obtain ⟨t, ht, exx, eyy, exy, eyx⟩ := welch_fft (p := { p with fs := input.fs }) h.valid ha hs
    (inputOf input c) (output.x c) hl (by rw [inputOf_length h hi hc]; exact hi.1) k
  change welch _ s _ none k = ((√(t * auto p (inputOf input c) k) : ℝ) : ℂ) at exx
  change welch _ s _ none k = ((√(t * auto p (output.x c) k) : ℝ) : ℂ) at eyy
  change welch _ s _ _ k = csqrt (t * cross p (inputOf input c) (output.x c) k) at exy
  change welch _ s _ _ k = csqrt (t * cross p (output.x c) (inputOf input c) k) at eyx
  have hA : 0 < auto p (inputOf input c) k := (auto_nonneg _ _ _).lt_of_ne' hx
  set A := auto p (inputOf input c) k with hAA
  have e1 : cross p (inputOf input c) (output.x c) k = ((-g : ℝ) : ℂ) * A := by
    rw [cross_mixed p (-g) _ _ _ _ hm, hnil, add_zero, cross_self]
  have e1' : cross p (output.x c) (inputOf input c) k = ((-g : ℝ) : ℂ) * A := by
    rw [cross_symm p _ _ hl, e1, map_mul, Complex.conj_ofReal, Complex.conj_ofReal]
  have e2 : auto p (output.x c) k = g ^ 2 * A := by
    have : (auto p (output.x c) k : ℂ) = g ^ 2 * A := by
      rw [← cross_self, cross_mixed p (-g) _ _ _ _ hm, hnil, add_zero, e1']
      push_cast
      ring
    exact_mod_cast this
  have hgA : csqrt (t * (((-g : ℝ) : ℂ) * A)) = Complex.I * ((√g * √(t * A) : ℝ) : ℂ) := by
    rw [← Real.sqrt_mul hg.le, ← csqrt_neg _ (by positivity)]
    push_cast
    congr 1
    ring
  have hq : √(t * (g ^ 2 * A)) = g * √(t * A) := by
    rw [show t * (g ^ 2 * A) = g ^ 2 * (t * A) by ring, Real.sqrt_mul (by positivity),
      Real.sqrt_sq hg.le]
  rw [e1, hgA] at exy
  rw [e1', hgA] at eyx
  rw [e2, hq] at eyy
  have hsA : 0 < √(t * A) := Real.sqrt_pos.mpr (by positivity)
  have hsg : 0 < √g := Real.sqrt_pos.mpr hg
  have n1 : ((√(t * A) : ℝ) : ℂ) ≠ 0 := by exact_mod_cast hsA.ne'
  have n0 : ((√g : ℝ) : ℂ) ≠ 0 := by exact_mod_cast hsg.ne'
  have n2 : Complex.I * ((√g * √(t * A) : ℝ) : ℂ) ≠ 0 :=
    mul_ne_zero Complex.I_ne_zero (by exact_mod_cast (mul_pos hsg hsA).ne')
  constructor
  · intro hmode
    subst hmode
    show entry .h1 _ s (inputOf input c) (output.x c) k = _
    unfold entry
    dsimp only
    rw [exx, exy, div, if_neg n1]
    push_cast
    rw [← mul_assoc, mul_div_cancel_right₀ _ n1]
  · intro hmode
    subst hmode
    show entry .h2 _ s (inputOf input c) (output.x c) k = _
    unfold entry
    dsimp only
    rw [eyy, eyx, div, if_neg n2]
    congr 1
    rw [div_eq_iff n2]
    have hgc : ((√g : ℝ) : ℂ) * ((√g : ℝ) : ℂ) = g := by
      rw [← Complex.ofReal_mul, Real.mul_self_sqrt hg.le]
    push_cast
    linear_combination (-((√(t * A) : ℝ) : ℂ)) * hgc +
      ((√g : ℝ) : ℂ) ^ 2 * ((√(t * A) : ℝ) : ℂ) * Complex.I_sq

/-- **C82**, negation: with these scalings the number stored as coherence is the square root of
`|S_xy|² / (S_xx S_yy)`. -/
theorem C82_default_coherence_wrong (output input : Sig) (p : Params) (hi : input.WF)
    (ho : output.WF) (s : Scaling) (hs : physical s = false) (ha : p.average = .mean)
    (mode : Mode) (r : Result) (hr : transferFunction output input p s mode = .ok r)
    (c : ℕ) (hc : c < output.n) (k : ℕ) (hx : auto p (inputOf input c) k ≠ 0)
    (hy : auto p (output.x c) k ≠ 0) :
    r.coh.val k c = some (√(‖cross p (inputOf input c) (output.x c) k‖ ^ 2 /
      (auto p (inputOf input c) k * auto p (output.x c) k))) := by
  have h := (C82_accepted_iff output input p hi s mode).mp ⟨r, hr⟩
  have hl : (inputOf input c).length = (output.x c).length := by
    rw [inputOf_length h hi hc, ho.2 c hc, h.length]
  rw [result h hi] at hr
  cases hr
  obtain ⟨t, ht, exx, eyy, exy, -⟩ := welch_fft (p := { p with fs := input.fs }) h.valid ha hs
    (inputOf input c) (output.x c) hl (by rw [inputOf_length h hi hc]; exact hi.1) k
  change welch _ s _ none k = ((√(t * auto p (inputOf input c) k) : ℝ) : ℂ) at exx
  change welch _ s _ none k = ((√(t * auto p (output.x c) k) : ℝ) : ℂ) at eyy
  change welch _ s _ _ k = csqrt (t * cross p (inputOf input c) (output.x c) k) at exy
  have hA : 0 < auto p (inputOf input c) k := (auto_nonneg _ _ _).lt_of_ne' hx
  have hB : 0 < auto p (output.x c) k := (auto_nonneg _ _ _).lt_of_ne' hy
  show coherence _ s (inputOf input c) (output.x c) k = _
  unfold coherence
  dsimp only
  rw [exx, eyy, exy, csqrt_norm]
  set A := auto p (inputOf input c) k
  set B := auto p (output.x c) k
  set S := cross p (inputOf input c) (output.x c) k
  have hsA : 0 < √(t * A) := Real.sqrt_pos.mpr (by positivity)
  have hsB : 0 < √(t * B) := Real.sqrt_pos.mpr (by positivity)
  have n1 : ((√(t * A) : ℝ) : ℂ) ≠ 0 := by exact_mod_cast hsA.ne'
  have n2 : ((√(t * B) : ℝ) : ℂ) ≠ 0 := by exact_mod_cast hsB.ne'
  rw [div, if_neg n1]
  dsimp only
  rw [div, if_neg n2, Option.map_some, ← Complex.ofReal_div, ← Complex.ofReal_div,
    Complex.ofReal_re, norm_mul, Complex.norm_real, Real.norm_eq_abs, abs_of_pos ht,
    Real.sqrt_div (by positivity), Real.sqrt_sq (norm_nonneg _), div_div, ← Real.sqrt_mul
      (by positivity), show t * A * (t * B) = t ^ 2 * (A * B) by ring,
    Real.sqrt_mul (by positivity), Real.sqrt_sq ht.le, mul_div_mul_left _ _ ht.ne']

/-! ### Examples -/

/-- Eight samples per segment, no overlap, rectangular window. -/
noncomputable def params (a : Average) : Params := ⟨8, List.replicate 8 1, 0, false, a, 48000⟩

theorem params_valid (a : Average) : Valid (params a) := ⟨⟨3, by norm_num, by norm_num, rfl⟩, by
  show 0 < 100
  norm_num⟩

theorem params_scalable (a : Average) : Scalable (params a) 48000 := by
  unfold Scalable params
  norm_num [List.sum_replicate]

/-- A unit impulse and the same with gain `g`. -/
noncomputable def impulse (g : ℝ) : Sig := ⟨48000, 16, 1, fun _ => g :: List.replicate 15 0⟩

theorem impulse_getD (g : ℝ) (c i : ℕ) :
    ((impulse g).x c).getD i 0 = if i = 0 then g else 0 := by
  show (g :: List.replicate 15 (0 : ℝ)).getD i 0 = _
  cases i with
  | zero => rfl
  | succ m =>
    rw [List.getD_cons_succ, if_neg (by omega)]
    by_cases hm : m < 15
    · rw [List.getD_eq_getElem _ _ (by simpa using hm), List.getElem_replicate]
    · rw [List.getD_eq_default _ _ (by simpa using hm)]

theorem impulse_wf (g : ℝ) : (impulse g).WF := ⟨by simp [impulse], fun c _ => by simp [impulse]⟩

theorem impulse_accepted (g h : ℝ) (a : Average) :
    Accepted (impulse g) (impulse h) (params a) := by
  refine ⟨rfl, rfl, Or.inl rfl, params_valid a, ?_, ?_⟩
  · simp [params, impulse, Params.step]
  · simp [params, impulse]

theorem impulse_auto (a : Average) (k : ℕ) : auto (params a) (inputOf (impulse 1) 0) k = 1 := by
  have hc : frameCount (params a) (inputOf (impulse 1) 0).length = 2 := by
    simp [frameCount, params, inputOf, impulse, Params.step]
  unfold auto
  rw [hc, Finset.sum_range_succ, Finset.sum_range_one]
  have h0 : segBin (params a) (inputOf (impulse 1) 0) k 0 = 1 := by
    unfold segBin rfft dft
    rw [Finset.sum_eq_single 0]
    · simp [detrended, segment, params, inputOf, impulse, e_zero]
    · intro i hi hne
      have hz : segment (params a) (inputOf (impulse 1) 0) 0 i = 0 := by
        unfold segment inputOf
        rw [impulse_getD, if_neg (by omega), zero_mul]
      have hd : (params a).detrend = false := rfl
      unfold detrended
      simp only [hd, Bool.false_eq_true, if_false, hz]
      simp
    · intro h
      exact absurd (mem_range.mpr (by simp [params])) h
  have h1 : segBin (params a) (inputOf (impulse 1) 0) k 1 = 0 := by
    unfold segBin rfft dft
    refine Finset.sum_eq_zero fun i hi => ?_
    have hz : segment (params a) (inputOf (impulse 1) 0) 1 i = 0 := by
      unfold segment inputOf
      rw [impulse_getD, if_neg (by simp [params, Params.step]), zero_mul]
    have hd : (params a).detrend = false := rfl
    unfold detrended
    simp only [hd, Bool.false_eq_true, if_false, hz]
    simp
  rw [h0, h1]
  norm_num

theorem impulse_mixed (g : ℝ) : Mixed g (inputOf (impulse 1) 0) [] ((impulse g).x 0) := by
  intro i
  unfold inputOf
  rw [impulse_getD, impulse_getD]
  split_ifs <;> simp

/-- The hypotheses of the theorems about exact gains are met: a gain of four. -/
example (k : ℕ) : ∃ r, transferFunction (impulse 4) (impulse 1) (params .mean) .powDensity .h2 =
    .ok r ∧ r.tf.val k 0 = some ((4 : ℝ) : ℂ) ∧ r.coh.val k 0 = some 1 := by
  obtain ⟨r, hr⟩ := (C82_accepted_iff (impulse 4) (impulse 1) (params .mean) (impulse_wf 1)
    .powDensity .h2).mpr (impulse_accepted 4 1 .mean)
  exact ⟨r, hr, C82_gain_partial _ _ _ (impulse_wf 1) (impulse_wf 4) _ rfl rfl
    (params_scalable _) _ r hr 0 (by simp [impulse]) k (by rw [impulse_auto]; norm_num) 4
    (by norm_num) (impulse_mixed 4)⟩

/-- With the scaling that signals have by default and the default mode the gain of four is
estimated as two. -/
example (k : ℕ) : ∃ r, transferFunction (impulse 4) (impulse 1) (params .mean) .fftBackward .h2 =
    .ok r ∧ r.tf.val k 0 = some ((2 : ℝ) : ℂ) := by
  obtain ⟨r, hr⟩ := (C82_accepted_iff (impulse 4) (impulse 1) (params .mean) (impulse_wf 1)
    .fftBackward .h2).mpr (impulse_accepted 4 1 .mean)
  refine ⟨r, hr, ?_⟩
  rw [C82_default_scaling_wrong _ _ _ (impulse_wf 1) (impulse_wf 4) _ rfl rfl _ r hr 0
    (by simp [impulse]) k (by rw [impulse_auto]; norm_num) 4 (by norm_num) (impulse_mixed 4),
    show (4 : ℝ) = 2 ^ 2 by norm_num, Real.sqrt_sq (by norm_num)]

/-- Uncorrelated disturbances exist: here one in the second segment, with the impulse in the
first one. -/
example (k : ℕ) : cross (params .mean) (inputOf (impulse 1) 0)
    (List.replicate 8 0 ++ List.replicate 8 5) k = 0 := by
  have hc : frameCount (params .mean) (inputOf (impulse 1) 0).length = 2 := by
    simp [frameCount, params, inputOf, impulse, Params.step]
  unfold cross
  rw [hc, Finset.sum_range_succ, Finset.sum_range_one]
  have h0 : segBin (params .mean) (List.replicate 8 0 ++ List.replicate 8 5) k 0 = 0 := by
    unfold segBin rfft dft
    refine Finset.sum_eq_zero fun i hi => ?_
    have hi : i < 8 := mem_range.mp hi
    interval_cases i <;> simp [detrended, segment, params]
  have h1 : segBin (params .mean) (inputOf (impulse 1) 0) k 1 = 0 := by
    unfold segBin rfft dft
    refine Finset.sum_eq_zero fun i hi => ?_
    have hz : segment (params .mean) (inputOf (impulse 1) 0) 1 i = 0 := by
      unfold segment inputOf
      rw [impulse_getD, if_neg (by simp [params, Params.step]), zero_mul]
    have hd : (params .mean).detrend = false := rfl
    unfold detrended
    simp only [hd, Bool.false_eq_true, if_false, hz]
    simp
  rw [h0, h1]
  simp

/-! ### The median -/

/-- Three constant segments. -/
noncomputable def stairs (a b c : ℝ) : Sig :=
  ⟨48000, 24, 1, fun _ => List.replicate 8 a ++ List.replicate 8 b ++ List.replicate 8 c⟩

theorem stairs_wf (a b c : ℝ) : (stairs a b c).WF :=
  ⟨by simp [stairs], fun _ _ => by simp [stairs]⟩

theorem stairs_bin (a b c : ℝ) (m : Average) (j : ℕ) (hj : j < 3) :
    segBin (params m) ((stairs a b c).x 0) 0 j = (8 * [a, b, c].getD j 0 : ℝ) := by
  unfold segBin rfft dft
  have hd : ∀ i < 8, detrended (params m) ((stairs a b c).x 0) j i = [a, b, c].getD j 0 := by
    intro i hi
    have hst : (params m).step = 8 := by simp [params, Params.step]
    unfold detrended segment
    rw [hst]
    have hw : (params m).window.getD i 0 = 1 := by
      show (List.replicate 8 (1 : ℝ)).getD i 0 = 1
      rw [List.getD_eq_getElem _ _ (by simpa using hi), List.getElem_replicate]
    rw [hw, mul_one]
    show (List.replicate 8 a ++ List.replicate 8 b ++ List.replicate 8 c).getD (j * 8 + i) 0 = _
    interval_cases j <;> interval_cases i <;> rfl
  have h8 : (params m).W = 8 := rfl
  have ht : ∀ n ∈ range 8, (fun n => (detrended (params m) ((stairs a b c).x 0) j n : ℂ)) n *
      e 8 (-((0 : ℕ) * n)) = (([a, b, c].getD j 0 : ℝ) : ℂ) := fun n hn => by
    dsimp only
    rw [hd n (mem_range.mp hn), show (-(((0 : ℕ) : ℤ) * (n : ℤ)) : ℤ) = 0 by simp, e_zero, mul_one]
  rw [h8, Finset.sum_congr rfl ht, Finset.sum_const, Finset.card_range]
  simp

theorem median_three (a b c : ℝ) (h1 : a ≤ b) (h2 : b ≤ c) : median [a, b, c] = b := by
  unfold median
  simp [List.insertionSort, h1, h2]

theorem median_three' (a b c : ℝ) (h1 : a ≤ c) (h2 : c < b) : median [a, b, c] = c := by
  have h3 : a ≤ b := h1.trans h2.le
  unfold median
  simp [List.insertionSort, List.orderedInsert, h1, not_le.mpr h2]

theorem stairs_products (a b c a' b' c' : ℝ) (s : Scaling) (hs : physical s = true) :
    products (params .median) s ((stairs a b c).x 0) (some ((stairs a' b' c').x 0)) 0 =
      [((64 * (a * a') : ℝ) : ℂ), ((64 * (b * b') : ℝ) : ℂ), ((64 * (c * c') : ℝ) : ℂ)] := by
  rw [products_cross (params_valid _) s _ _ (by simp [stairs]), fftNorm_physical hs]
  have hc : frameCount (params .median) ((stairs a b c).x 0).length = 3 := by
    simp [frameCount, params, stairs, Params.step]
  rw [hc]
  simp only [List.range_succ, List.range_zero, List.nil_append, List.map_cons,
    List.map_nil, List.cons_append]
  rw [stairs_bin a b c _ 0 (by norm_num), stairs_bin a b c _ 1 (by norm_num),
    stairs_bin a b c _ 2 (by norm_num), stairs_bin a' b' c' _ 0 (by norm_num),
    stairs_bin a' b' c' _ 1 (by norm_num), stairs_bin a' b' c' _ 2 (by norm_num)]
  simp only [Complex.conj_ofReal, List.getD_cons_zero, List.getD_cons_succ]
  push_cast
  refine congrArg₂ _ ?_ (congrArg₂ _ ?_ (congrArg₂ _ ?_ rfl)) <;> ring

/-- **C82**, negation: with the median over the segments the coherence may exceed one; for these
signals of three constant segments it is four. -/
theorem C82_median_coherence_wrong (mode : Mode) : ∃ r,
    transferFunction (stairs 1 2 1) (stairs 1 1 2) (params .median) .powDensity mode = .ok r ∧
      r.coh.val 0 0 = some 4 := by
  have hacc : Accepted (stairs 1 2 1) (stairs 1 1 2) (params .median) := by
    refine ⟨rfl, rfl, Or.inl rfl, params_valid _, ?_, ?_⟩
    · simp [params, stairs, Params.step]
    · simp [params, stairs]
  refine ⟨_, result hacc (stairs_wf _ _ _) _ _, ?_⟩
  show coherence (params .median) .powDensity ((stairs 1 1 2).x 0) ((stairs 1 2 1).x 0) 0 = _
  have hauto : ∀ x, products (params .median) .powDensity x none 0 =
      products (params .median) .powDensity x (some x) 0 := fun x =>
    products_auto (params_valid _) _ x 0
  set t := scaleFactor (params .median) .powDensity 0 with ht
  have htp : 0 < t := by
    rw [ht]
    have := total_pos_power (params_valid .median) (s := .powDensity) rfl (params_scalable _)
      (L := 24) (by norm_num) 0
    unfold total at this
    have hc : (frameCount (params .median) 24 : ℝ) = 3 := by
      have : frameCount (params .median) 24 = 3 := by simp [frameCount, params, Params.step]
      rw [this]
      norm_num
    rw [hc, fftNorm_physical rfl] at this
    linarith
  have hb : bias 3 = 1 / 3 := by
    unfold bias
    norm_num
  have hav : ∀ a b c : ℝ, averaged .median [(a : ℂ), (b : ℂ), (c : ℂ)] =
      ((3 * median [a, b, c] : ℝ) : ℂ) := by
    intro a b c
    unfold averaged
    have hz : median [0, 0, 0] = 0 := median_three 0 0 0 le_rfl le_rfl
    simp only [List.map_cons, List.map_nil, Complex.ofReal_re, Complex.ofReal_im, List.length_cons,
      List.length_nil, hz]
    rw [show 0 + 1 + 1 + 1 = 3 from rfl, hb]
    push_cast
    ring
  have hscale : ∀ z, welchScale (params .median) .powDensity 0 z = z * (t : ℝ) := by
    intro z
    rw [welchScale_eq]
    simp [Scaling.isAmplitude, ht]
  have hmed : (params .median).average = .median := rfl
  have gxx : welch (params .median) .powDensity ((stairs 1 1 2).x 0) none 0 =
      ((192 * t : ℝ) : ℂ) := by
    unfold welch
    rw [hauto, stairs_products _ _ _ _ _ _ _ rfl, hmed, hav, hscale,
      median_three _ _ _ (by norm_num) (by norm_num)]
    push_cast
    ring
  have gyy : welch (params .median) .powDensity ((stairs 1 2 1).x 0) none 0 =
      ((192 * t : ℝ) : ℂ) := by
    unfold welch
    rw [hauto, stairs_products _ _ _ _ _ _ _ rfl, hmed, hav, hscale,
      median_three' _ _ _ (by norm_num) (by norm_num)]
    push_cast
    ring
  have gxy : welch (params .median) .powDensity ((stairs 1 1 2).x 0)
      (some ((stairs 1 2 1).x 0)) 0 = ((384 * t : ℝ) : ℂ) := by
    unfold welch
    rw [stairs_products _ _ _ _ _ _ _ rfl, hmed, hav, hscale,
      median_three _ _ _ (by norm_num) (by norm_num)]
    push_cast
    ring
  have hne : ((192 * t : ℝ) : ℂ) ≠ 0 := by
    exact_mod_cast (by positivity : (192 * t : ℝ) ≠ 0)
  unfold coherence
  dsimp only
  rw [gxx, gyy, gxy, div, if_neg hne]
  dsimp only
  rw [div, if_neg hne, Option.map_some, ← Complex.ofReal_div, ← Complex.ofReal_div,
    Complex.ofReal_re, Complex.norm_real, Real.norm_eq_abs, sq_abs]
  congr 1
  field_simp
  norm_num

end Verif.TransferEstimate
