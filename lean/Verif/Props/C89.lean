import Mathlib.Analysis.SpecialFunctions.Complex.LogDeriv
import Mathlib.Analysis.Calculus.Deriv.Inv
import Mathlib.Analysis.SpecialFunctions.ExpDeriv
import Mathlib.Algebra.BigOperators.NatAntidiagonal
import Mathlib.Algebra.Polynomial.Eval.Coeff
import Verif.Model.GroupDelay
import Verif.Lemmas.DFT
import Verif.Props.C42

/-!
# C89: group delays are the negative derivative of the phase
-/

namespace Verif.GroupDelay

open Complex Finset DFT Filter Topology

/-! ### Specification -/

/-- Response of an FIR filter at `w` radians per sample. -/
noncomputable def resp (b : List ℝ) (w : ℝ) : ℂ := ∑ n ∈ range b.length, (b.getD n 0 : ℂ) * exp (-(I * w * n))

/-- `tau` (in samples) is the group delay of `H` at `w`: the negative derivative of a phase. -/
def IsGroupDelay (H : ℝ → ℂ) (w tau : ℝ) : Prop :=
  ∃ phi : ℝ → ℝ, HasDerivAt phi (-tau) w ∧ ∀ᶠ v in 𝓝 w, H v = ‖H v‖ * exp (I * phi v)

/-! ### Group delay and logarithmic derivative -/

theorem groupDelay_of_deriv (H : ℝ → ℂ) (w : ℝ) (H' : ℂ) (h : HasDerivAt H H' w) (h0 : H w ≠ 0) :
    IsGroupDelay H w (-(H' / H w).im) := by
  have h1 : HasDerivAt (fun v => H v / H w) (H' / H w) w := h.div_const _
  have h2 : HasDerivAt (fun v => Complex.log (H v / H w)) (H' / H w) w := by
    have := h1.clog_real (by rw [div_self h0]; exact Complex.one_mem_slitPlane)
    rwa [div_self h0, div_one] at this
  refine ⟨fun v => (Complex.log (H v / H w)).im + arg (H w), ?_, ?_⟩
  · rw [neg_neg]
    have h3 : HasDerivAt (fun v => (Complex.log (H v / H w)).im) (H' / H w).im w :=
      (Complex.imCLM.hasFDerivAt.comp_hasDerivAt w h2)
    exact h3.add_const _
  · refine (h.continuousAt.eventually_ne h0).mono fun v hv => ?_
    have h3 : H v / H w ≠ 0 := div_ne_zero hv h0
    dsimp only
    rw [Complex.log_im]
    have h4 := Complex.norm_mul_exp_arg_mul_I (H v / H w)
    have h5 := Complex.norm_mul_exp_arg_mul_I (H w)
    have h6 : H v = (H v / H w) * H w := (div_mul_cancel₀ _ h0).symm
    have h7 : ‖H v‖ = ‖H v / H w‖ * ‖H w‖ := by rw [← norm_mul, ← h6]
    calc H v = (H v / H w) * H w := h6
      _ = (‖H v / H w‖ * exp ((H v / H w).arg * I)) * (‖H w‖ * exp ((H w).arg * I)) := by rw [h4, h5]
      _ = _ := by
        rw [h7]
        push_cast
        rw [mul_add, Complex.exp_add, mul_comm I, mul_comm I]
        ring

/-- A response that is not zero has one group delay only. -/
theorem groupDelay_unique (H : ℝ → ℂ) (w : ℝ) (H' : ℂ) (h : HasDerivAt H H' w) (h0 : H w ≠ 0) (tau : ℝ)
    (ht : IsGroupDelay H w tau) : tau = -(H' / H w).im := by
  obtain ⟨phi, h1, h2⟩ := ht
  have h3 : HasDerivAt (fun v => exp (-(I * phi v))) (exp (-(I * phi w)) * -(I * ((-tau : ℝ) : ℂ))) w := by
    have : HasDerivAt (fun v => (phi v : ℂ)) ((-tau : ℝ) : ℂ) w := h1.ofReal_comp
    exact ((this.const_mul I).neg).cexp
  have h4 : HasDerivAt (fun v => H v * exp (-(I * phi v))) _ w := h.mul h3
  have h5 : (fun v => H v * exp (-(I * phi v))) =ᶠ[𝓝 w] fun v => ((‖H v‖ : ℝ) : ℂ) := by
    refine h2.mono fun v hv => ?_
    dsimp only
    rw [hv, mul_assoc, ← Complex.exp_add, add_neg_cancel, Complex.exp_zero, mul_one]
    simp
  have h6 := h4.congr_of_eventuallyEq h5.symm
  have h7 : HasDerivAt (fun v => (((‖H v‖ : ℝ) : ℂ)).im)
      (H' * exp (-(I * phi w)) + H w * (exp (-(I * phi w)) * -(I * ((-tau : ℝ) : ℂ)))).im w :=
    (Complex.imCLM.hasFDerivAt.comp_hasDerivAt w h6)
  simp only [Complex.ofReal_im] at h7
  have h8 := h7.unique (hasDerivAt_const w (0 : ℝ))
  have h9 : H w = ‖H w‖ * exp (I * phi w) := h2.self_of_nhds
  have hE : exp (I * phi w) * exp (-(I * phi w)) = 1 := by
    rw [← Complex.exp_add, add_neg_cancel, Complex.exp_zero]
  have hr : (‖H w‖ : ℝ) ≠ 0 := norm_ne_zero_iff.2 h0
  have h10 : H' * exp (-(I * phi w)) + H w * (exp (-(I * phi w)) * -(I * ((-tau : ℝ) : ℂ))) =
      ‖H w‖ * (H' / H w + I * tau) := by
    have : exp (-(I * phi w)) = ‖H w‖ / H w := by
      rw [eq_div_iff h0]
      conv_lhs => rw [h9]
      rw [mul_left_comm, mul_comm (exp (-(I * phi w))), hE, mul_one]
    rw [this]
    push_cast
    field_simp
  rw [h10, Complex.im_ofReal_mul, Complex.add_im] at h8
  have h11 : (I * (tau : ℂ)).im = tau := by simp
  rcases mul_eq_zero.1 h8 with h | h
  · exact absurd h hr
  · rw [h11] at h
    linarith

/-! ### The computation for filters -/

/-- Derivative of the response up to the factor `-i`. -/
noncomputable def ramp (b : List ℝ) (w : ℝ) : ℂ :=
  ∑ n ∈ range b.length, (n * b.getD n 0 : ℂ) * exp (-(I * w * n))

theorem resp_deriv (b : List ℝ) (w : ℝ) : HasDerivAt (resp b) (-I * ramp b w) w := by
  unfold resp ramp
  rw [mul_sum]
  refine HasDerivAt.fun_sum fun n _ => ?_
  have h1 : HasDerivAt (fun v : ℝ => -(I * (v : ℂ) * n)) (-(I * 1 * n)) w :=
    (((hasDerivAt_id w).ofReal_comp.const_mul I).mul_const (n : ℂ)).neg
  refine (h1.cexp.const_mul (b.getD n 0 : ℂ)).congr_deriv ?_
  ring

theorem polyval_snoc (c : List ℝ) (a : ℝ) (z : ℂ) : polyval (c ++ [a]) z = polyval c z * z + a := by
  unfold polyval
  rw [List.foldl_append]
  rfl

theorem polyval_eq (c : List ℝ) (z : ℂ) (hz : z ≠ 0) :
    polyval c z * z = z ^ c.length * ∑ n ∈ range c.length, (c.getD n 0 : ℂ) * z⁻¹ ^ n := by
  induction c using List.reverseRecOn with
  | nil => simp [polyval]
  | append_singleton c a ih =>
    rw [polyval_snoc, ih, List.length_append, List.length_singleton, sum_range_succ]
    have h1 : ∑ n ∈ range c.length, (((c ++ [a]).getD n 0 : ℝ) : ℂ) * z⁻¹ ^ n =
        ∑ n ∈ range c.length, ((c.getD n 0 : ℝ) : ℂ) * z⁻¹ ^ n := by
      refine sum_congr rfl fun n hn => ?_
      rw [List.getD_append _ _ _ _ (mem_range.1 hn)]
    rw [h1, List.getD_append_right _ _ _ _ le_rfl, Nat.sub_self]
    have h2 : z ^ c.length * z⁻¹ ^ c.length = 1 := by
      rw [← mul_pow, mul_inv_cancel₀ hz, one_pow]
    simp only [List.getD_cons_zero]
    linear_combination (-(a : ℂ) * z) * h2

theorem exp_pow (w : ℝ) (n : ℕ) : (exp (I * w))⁻¹ ^ n = exp (-(I * w * n)) := by
  rw [← Complex.exp_neg, ← Complex.exp_nat_mul]
  congr 1
  ring

theorem polyval_resp (c : List ℝ) (w : ℝ) :
    polyval c (exp (I * w)) * exp (I * w) = exp (I * w) ^ c.length * resp c w := by
  rw [polyval_eq c _ (Complex.exp_ne_zero _)]
  unfold resp
  simp only [exp_pow]

theorem ramp_resp (c : List ℝ) (w : ℝ) : resp (c.zipIdx.map fun p => p.1 * (p.2 : ℝ)) w = ramp c w := by
  unfold resp ramp
  rw [List.length_map, List.length_zipIdx]
  refine sum_congr rfl fun n hn => ?_
  have hn := mem_range.1 hn
  rw [List.getD_eq_getElem _ _ (by simpa using hn), List.getD_eq_getElem _ _ hn]
  simp only [List.getElem_map, List.getElem_zipIdx]
  push_cast
  ring

/-- Sums over a convolution. -/
theorem sum_convolve (x y : List ℝ) (g : ℕ → ℂ) :
    ∑ n ∈ range (convolve x y).length, ((convolve x y).getD n 0 : ℂ) * g n =
      ∑ i ∈ range x.length, ∑ j ∈ range y.length, (x.getD i 0 : ℂ) * y.getD j 0 * g (i + j) := by
  have hlen : (convolve x y).length = x.length + y.length - 1 := by simp [convolve]
  rw [hlen]
  have h1 : ∀ n ∈ range (x.length + y.length - 1), ((convolve x y).getD n 0 : ℂ) * g n =
      ∑ i ∈ range (n + 1), (fun i j => (x.getD i 0 : ℂ) * y.getD j 0 * g (i + j)) i (n - i) := by
    intro n hn
    rw [List.getD_eq_getElem _ _ (by rw [hlen]; exact mem_range.1 hn)]
    unfold convolve
    simp only [List.getElem_map, List.getElem_range]
    push_cast
    rw [sum_mul]
    refine sum_congr rfl fun i hi => ?_
    rw [show i + (n - i) = n by have := mem_range.1 hi; omega]
  rw [sum_congr rfl h1]
  refine (Finset.sum_range_diag_flip (x.length + y.length - 1)
    (fun i j => (x.getD i 0 : ℂ) * y.getD j 0 * g (i + j))).trans ?_
  by_cases hy : y.length = 0
  · rw [List.length_eq_zero_iff.1 hy]
    simp
  rw [← Finset.sum_subset (range_subset_range.2 (show x.length ≤ x.length + y.length - 1 by omega))]
  · refine sum_congr rfl fun i hi => ?_
    have hi := mem_range.1 hi
    refine (Finset.sum_subset (range_subset_range.2 (by omega)) fun j _ hj => ?_).symm
    rw [List.getD_eq_default _ _ (not_lt.1 fun h => hj (mem_range.2 h))]
    simp
  · intro i _ hi
    refine sum_eq_zero fun j _ => ?_
    rw [List.getD_eq_default _ _ (not_lt.1 fun h => hi (mem_range.2 h))]
    simp

theorem exp_add_index (w : ℝ) (i j : ℕ) :
    exp (-(I * w * ((i + j : ℕ) : ℂ))) = exp (-(I * w * i)) * exp (-(I * w * j)) := by
  rw [← Complex.exp_add]
  congr 1
  push_cast
  ring

theorem resp_convolve (x y : List ℝ) (w : ℝ) : resp (convolve x y) w = resp x w * resp y w := by
  unfold resp
  rw [sum_convolve x y fun n => exp (-(I * w * n)), sum_mul_sum]
  refine sum_congr rfl fun i _ => sum_congr rfl fun j _ => ?_
  rw [exp_add_index]
  ring

theorem ramp_convolve (x y : List ℝ) (w : ℝ) :
    ramp (convolve x y) w = ramp x w * resp y w + resp x w * ramp y w := by
  unfold resp ramp
  have h1 : ∀ c : List ℝ, ∑ n ∈ range c.length, (n * c.getD n 0 : ℂ) * exp (-(I * w * n)) =
      ∑ n ∈ range c.length, (c.getD n 0 : ℂ) * (n * exp (-(I * w * n))) :=
    fun c => sum_congr rfl fun n _ => by ring
  rw [h1 (convolve x y), sum_convolve x y fun n => (n : ℂ) * exp (-(I * w * n)), sum_mul_sum, sum_mul_sum,
    ← sum_add_distrib]
  refine sum_congr rfl fun i _ => ?_
  rw [← sum_add_distrib]
  refine sum_congr rfl fun j _ => ?_
  rw [exp_add_index]
  push_cast
  ring

theorem exp_conj_index (w : ℝ) (n : ℕ) : (starRingEnd ℂ) (exp (-(I * w * n))) = exp (I * w * n) := by
  rw [← Complex.exp_conj]
  congr 1
  simp

theorem exp_reverse (w : ℝ) (L n : ℕ) (hn : n < L) :
    exp (-(I * w * ((L - 1 - n : ℕ) : ℂ))) = exp (-(I * w * ((L - 1 : ℕ) : ℂ))) * exp (I * w * n) := by
  rw [← Complex.exp_add]
  congr 1
  rw [Nat.cast_sub (by omega)]
  ring

theorem getD_reverse (a : List ℝ) (n : ℕ) (hn : n < a.length) :
    a.reverse.getD (a.length - 1 - n) 0 = a.getD n 0 := by
  rw [List.getD_eq_getElem _ _ (by simp; omega), List.getD_eq_getElem _ _ hn, List.getElem_reverse]
  congr 1
  omega

theorem resp_reverse (a : List ℝ) (w : ℝ) :
    resp a.reverse w = exp (-(I * w * ((a.length - 1 : ℕ) : ℂ))) * (starRingEnd ℂ) (resp a w) := by
  unfold resp
  rw [map_sum, mul_sum, List.length_reverse, ← sum_range_reflect]
  refine sum_congr rfl fun n hn => ?_
  have hn := mem_range.1 hn
  rw [getD_reverse a n hn, exp_reverse w _ n hn, map_mul, exp_conj_index, Complex.conj_ofReal]
  ring

theorem ramp_reverse (a : List ℝ) (w : ℝ) :
    ramp a.reverse w = exp (-(I * w * ((a.length - 1 : ℕ) : ℂ))) *
      (((a.length - 1 : ℕ) : ℂ) * (starRingEnd ℂ) (resp a w) - (starRingEnd ℂ) (ramp a w)) := by
  unfold ramp resp
  rw [map_sum, map_sum, mul_sum, ← sum_sub_distrib, mul_sum, List.length_reverse, ← sum_range_reflect]
  refine sum_congr rfl fun n hn => ?_
  have hn := mem_range.1 hn
  rw [getD_reverse a n hn, exp_reverse w _ n hn, map_mul, map_mul, map_mul, exp_conj_index, Complex.conj_ofReal,
    Complex.conj_natCast, Nat.cast_sub (show n ≤ a.length - 1 by omega)]
  ring

/-- The computed value for a response that is neither zero nor infinite. -/
theorem delayAt_eq (b a : List ℝ) (fs : ℕ) (w : ℝ) (hb : resp b w ≠ 0) (ha : resp a w ≠ 0) :
    delayAt b a fs w = ((ramp b w / resp b w).re - (ramp a w / resp a w).re) / fs := by
  have ha0 : a ≠ [] := by
    rintro rfl
    exact ha (by simp [resp])
  have hla : 0 < a.length := List.length_pos_iff.2 ha0
  unfold delayAt
  dsimp only
  set c := convolve b a.reverse with hc
  set z := exp (I * w) with hz
  have hz0 : z ≠ 0 := Complex.exp_ne_zero _
  have h1 : polyval c z * z = z ^ c.length * resp c w := polyval_resp c w
  have h2 : polyval (c.zipIdx.map fun p => p.1 * (p.2 : ℝ)) z * z = z ^ c.length * ramp c w := by
    rw [hz, polyval_resp, ramp_resp, List.length_map, List.length_zipIdx]
  set E := exp (-(I * w * ((a.length - 1 : ℕ) : ℂ))) with hE
  have hE0 : E ≠ 0 := Complex.exp_ne_zero _
  have hA : (starRingEnd ℂ) (resp a w) ≠ 0 := (map_ne_zero _).2 ha
  have h3 : resp c w = resp b w * (E * (starRingEnd ℂ) (resp a w)) := by
    rw [hc, resp_convolve, resp_reverse]
  have h4 : ramp c w = ramp b w * (E * (starRingEnd ℂ) (resp a w)) + resp b w * (E *
      (((a.length - 1 : ℕ) : ℂ) * (starRingEnd ℂ) (resp a w) - (starRingEnd ℂ) (ramp a w))) := by
    rw [hc, ramp_convolve, resp_reverse, ramp_reverse]
  have h5 : resp c w ≠ 0 := by
    rw [h3]
    exact mul_ne_zero hb (mul_ne_zero hE0 hA)
  have h6 : polyval c z ≠ 0 := by
    intro h
    rw [h, zero_mul] at h1
    exact (mul_ne_zero (pow_ne_zero _ hz0) h5) h1.symm
  rw [if_neg h6]
  have h7 : polyval (c.zipIdx.map fun p => p.1 * (p.2 : ℝ)) z / polyval c z =
      ramp b w / resp b w + ((a.length - 1 : ℕ) : ℂ) - (starRingEnd ℂ) (ramp a w / resp a w) := by
    rw [← mul_div_mul_right _ _ hz0, h1, h2, mul_div_mul_left _ _ (pow_ne_zero _ hz0), h3, h4, map_div₀]
    field_simp
    ring
  rw [h7, Complex.sub_re, Complex.add_re, Complex.conj_re, Complex.natCast_re, Nat.cast_sub hla]
  push_cast
  ring

/-- `_group_delay_filter` gives the negative derivative of the phase of the filter, in seconds, wherever
the filter has neither a zero nor a pole. -/
theorem C89_filter (b a : List ℝ) (fs : ℕ) (hfs : 0 < fs) (w : ℝ) (hb : resp b w ≠ 0) (ha : resp a w ≠ 0) :
    IsGroupDelay (fun v => resp b v / resp a v) w (fs * delayAt b a fs w) ∧
      ∀ tau, IsGroupDelay (fun v => resp b v / resp a v) w tau → delayAt b a fs w = tau / fs := by
  have hfs' : (fs : ℝ) ≠ 0 := by exact_mod_cast hfs.ne'
  have h0 : resp b w / resp a w ≠ 0 := div_ne_zero hb ha
  have h1 := (resp_deriv b w).div (resp_deriv a w) ha
  have h2 : ((-I * ramp b w * resp a w - resp b w * (-I * ramp a w)) / resp a w ^ 2) / (resp b w / resp a w) =
      -(I * (ramp b w / resp b w - ramp a w / resp a w)) := by
    field_simp
    ring
  have h3 : -(((-I * ramp b w * resp a w - resp b w * (-I * ramp a w)) / resp a w ^ 2) / (resp b w / resp a w)).im =
      fs * delayAt b a fs w := by
    rw [h2, delayAt_eq b a fs w hb ha, mul_div_cancel₀ _ hfs', ← Complex.sub_re]
    simp
  constructor
  · rw [← h3]
    exact groupDelay_of_deriv _ w _ h1 h0
  · intro tau ht
    have := groupDelay_unique _ w _ h1 h0 tau ht
    rw [eq_div_iff hfs', mul_comm, this]
    exact h3.symm

/-- Where the filter has a zero the value is zero. -/
theorem C89_zero (b a : List ℝ) (fs : ℕ) (w : ℝ) (hb : resp b w = 0) : delayAt b a fs w = 0 := by
  unfold delayAt
  dsimp only
  rw [if_pos, zero_div]
  have h1 := polyval_resp (convolve b a.reverse) w
  rw [resp_convolve, hb, zero_mul, mul_zero] at h1
  exact (mul_eq_zero.1 h1).resolve_right (Complex.exp_ne_zero _)

/-- The values of `_group_delay_filter` belong to the frequencies that it returns. -/
theorem C89_filter_frequencies (b a : List ℝ) (length fs k : ℕ) (hfs : 0 < fs) (hk : k < length) :
    ∃ f g, (filterDelay b a length fs).getD k (0, 0) = (f, g) ∧ g = delayAt b a fs (2 * Real.pi * f / fs) ∧
      (2 ≤ length → f = k * fs / (2 * (length - 1 : ℕ))) := by
  have hfs' : (fs : ℝ) ≠ 0 := by exact_mod_cast hfs.ne'
  unfold filterDelay
  rw [List.getD_eq_getElem _ _ (by simpa using hk)]
  simp only [List.getElem_map, List.getElem_range]
  refine ⟨_, _, rfl, ?_, fun h2 => ?_⟩
  · congr 1
    have := Real.pi_ne_zero
    field_simp
  · unfold omegaGrid
    rw [if_neg (by omega)]
    have := Real.pi_ne_zero
    have : ((length - 1 : ℕ) : ℝ) ≠ 0 := by exact_mod_cast (by omega : length - 1 ≠ 0)
    field_simp

/-- A delay by `d` samples adds `d` samples to the group delay. -/
theorem C89_delay (b a : List ℝ) (fs d : ℕ) (w : ℝ) (hb : resp b w ≠ 0) (ha : resp a w ≠ 0) :
    delayAt (List.replicate d 0 ++ b) a fs w = delayAt b a fs w + d / fs := by
  have hg : ∀ g : ℕ → ℂ, ∑ n ∈ range (List.replicate d (0 : ℝ) ++ b).length,
      (((List.replicate d (0 : ℝ) ++ b).getD n 0 : ℝ) : ℂ) * g n =
      ∑ n ∈ range b.length, (b.getD n 0 : ℂ) * g (d + n) := by
    intro g
    rw [List.length_append, List.length_replicate, sum_range_add]
    rw [sum_eq_zero, zero_add]
    · refine sum_congr rfl fun n _ => ?_
      rw [List.getD_append_right _ _ _ _ (by simp), List.length_replicate, Nat.add_sub_cancel_left]
    · intro n hn
      rw [List.getD_append _ _ _ _ (by simpa using hn), List.getD_replicate]
      · simp
      · exact mem_range.1 hn
  have h1 : resp (List.replicate d 0 ++ b) w = exp (-(I * w * d)) * resp b w := by
    unfold resp
    rw [hg fun n => exp (-(I * w * n)), mul_sum]
    refine sum_congr rfl fun n _ => ?_
    rw [exp_add_index]
    ring
  have h2 : ramp (List.replicate d 0 ++ b) w = exp (-(I * w * d)) * (ramp b w + d * resp b w) := by
    unfold resp ramp
    have h3 : ∀ c : List ℝ, ∑ n ∈ range c.length, (n * c.getD n 0 : ℂ) * exp (-(I * w * n)) =
        ∑ n ∈ range c.length, (c.getD n 0 : ℂ) * (n * exp (-(I * w * n))) :=
      fun c => sum_congr rfl fun n _ => by ring
    rw [h3, hg fun n => (n : ℂ) * exp (-(I * w * n)), h3, mul_sum, ← sum_add_distrib, mul_sum]
    refine sum_congr rfl fun n _ => ?_
    rw [exp_add_index]
    push_cast
    ring
  have hE := Complex.exp_ne_zero (-(I * w * d))
  have hb' : resp (List.replicate d 0 ++ b) w ≠ 0 := by
    rw [h1]
    exact mul_ne_zero hE hb
  rw [delayAt_eq _ a fs w hb' ha, delayAt_eq b a fs w hb ha, h1, h2, mul_div_mul_left _ _ hE, add_div,
    mul_div_cancel_right₀ _ hb, Complex.add_re, Complex.natCast_re]
  ring

/-! ### Signals -/

/-- `group_delay(signal)` of a signal with an even number of samples: the frequencies are those of its
spectrum, and each value is the group delay of the signal at its frequency. -/
theorem C89_signal_partial (x : List ℝ) (fs : ℕ) (hfs : 0 < fs) (hx : x.length % 2 = 0) (hx0 : 0 < x.length)
    (k : ℕ) (hk : k ≤ x.length / 2) :
    (groupDelayAnalytic x fs).1.getD k 0 = k * fs / x.length ∧
      (groupDelayAnalytic x fs).2.getD k 0 = delayAt x [1] fs (2 * Real.pi * (groupDelayAnalytic x fs).1.getD k 0 / fs) := by
  have hlen : (rfftfreq x.length fs).length = x.length / 2 + 1 := by simp [rfftfreq]
  have h1 : (rfftfreq x.length fs).getD k 0 = k * fs / x.length := by
    rw [List.getD_eq_getElem _ _ (by rw [hlen]; omega)]
    unfold rfftfreq
    simp only [List.getElem_map, List.getElem_range]
  unfold groupDelayAnalytic
  dsimp only
  refine ⟨h1, ?_⟩
  rw [h1, hlen]
  obtain ⟨f, g, h2, h3, h4⟩ := C89_filter_frequencies x [1] (x.length / 2 + 1) fs k hfs (by omega)
  have h5 : ((filterDelay x [1] (x.length / 2 + 1) fs).map Prod.snd).getD k 0 = g := by
    have hl : k < (filterDelay x [1] (x.length / 2 + 1) fs).length := by
      unfold filterDelay
      simp
      omega
    rw [List.getD_eq_getElem _ _ hl] at h2
    rw [List.getD_eq_getElem _ _ (by simpa using hl), List.getElem_map, h2]
  rw [h5, h3, h4 (by omega)]
  congr 3
  have h6 : (x.length : ℝ) = 2 * (x.length / 2 + 1 - 1 : ℕ) := by
    have : x.length = 2 * (x.length / 2 + 1 - 1) := by omega
    exact_mod_cast this
  rw [← h6]

/-- With an odd number of samples the values belong to other frequencies: the signal `1, 1/2, 0` has the
group delay zero at a third of the sampling rate, but the value is one sample less. -/
theorem C89_odd_wrong (fs : ℕ) (hfs : 0 < fs) :
    (groupDelayAnalytic [1, 1 / 2, 0] fs).1.getD 1 0 = fs / 3 ∧
      IsGroupDelay (resp [1, 1 / 2, 0]) (2 * Real.pi * (fs / 3) / fs) 0 ∧
      (groupDelayAnalytic [1, 1 / 2, 0] fs).2.getD 1 0 = -1 / fs := by
  have hfs' : (fs : ℝ) ≠ 0 := by exact_mod_cast hfs.ne'
  have hr : ∀ w, resp [1, 1 / 2, 0] w = 1 + 1 / 2 * exp (-(I * w)) := by
    intro w
    simp [resp, sum_range_succ]
  have hm : ∀ w, ramp [1, 1 / 2, 0] w = 1 / 2 * exp (-(I * w)) := by
    intro w
    simp [ramp, sum_range_succ]
  have hr1 : ∀ w, resp [1] w = 1 := by
    intro w
    simp [resp]
  have hm1 : ∀ w, ramp [1] w = 0 := by
    intro w
    simp [ramp]
  refine ⟨?_, ?_, ?_⟩
  · simp [groupDelayAnalytic, rfftfreq]
  · set w := 2 * Real.pi * ((fs : ℝ) / 3) / fs with hw
    have hw' : w = Real.pi - Real.pi / 3 := by
      rw [hw]
      field_simp
      ring
    have hE : exp (-(I * w)) = -(1 / 2) - (√3 / 2 : ℝ) * I := by
      rw [show -(I * (w : ℂ)) = ((-w : ℝ) : ℂ) * I by push_cast; ring, Complex.exp_mul_I, ← Complex.ofReal_cos,
        ← Complex.ofReal_sin, Real.cos_neg, Real.sin_neg, hw', Real.cos_pi_sub, Real.sin_pi_sub,
        Real.cos_pi_div_three, Real.sin_pi_div_three]
      push_cast
      ring
    have h3 : (√3 : ℝ) ^ 2 = 3 := Real.sq_sqrt (by norm_num)
    have hR : resp [1, 1 / 2, 0] w = ((3 / 4 : ℝ) : ℂ) + ((-(√3 / 4) : ℝ) : ℂ) * I := by
      rw [hr, hE]
      push_cast
      ring
    have h0 : resp [1, 1 / 2, 0] w ≠ 0 := by
      rw [hR]
      intro h
      have := congrArg Complex.re h
      simp at this
    have h1 := groupDelay_of_deriv _ w _ (resp_deriv [1, 1 / 2, 0] w) h0
    have h2 : (-I * ramp [1, 1 / 2, 0] w / resp [1, 1 / 2, 0] w).im = 0 := by
      have : -I * ramp [1, 1 / 2, 0] w / resp [1, 1 / 2, 0] w = ((-(√3 / 3) : ℝ) : ℂ) := by
        rw [div_eq_iff h0, hm, hE, hR]
        have h4 : ((√3 : ℝ) : ℂ) ^ 2 = 3 := by exact_mod_cast h3
        have h5 : I ^ 2 = -1 := Complex.I_sq
        push_cast
        linear_combination (-(1 / 12) * I : ℂ) * h4 + (√3 / 4 : ℂ) * h5
      rw [this, Complex.ofReal_im]
    rw [h2, neg_zero] at h1
    exact h1
  · have h1 : (groupDelayAnalytic [1, 1 / 2, 0] fs).2.getD 1 0 = delayAt [1, 1 / 2, 0] [1] fs Real.pi := by
      simp [groupDelayAnalytic, rfftfreq, filterDelay, omegaGrid]
    have hE : exp (-(I * (Real.pi : ℂ))) = -1 := by
      rw [Complex.exp_neg, mul_comm, Complex.exp_pi_mul_I]
      norm_num
    rw [h1, delayAt_eq _ _ fs _ (by rw [hr, hE]; norm_num) (by rw [hr1]; norm_num), hr, hm, hr1, hm1, hE]
    norm_num

/-! ### Differences of the phase -/

/-- One step of the phase is found again from the wrapped phases. -/
theorem unwrap_step (dd delta : ℝ) (m : ℤ) (h : |delta| < Real.pi) (hd : dd = delta + m * (2 * Real.pi)) :
    dd + Spectrum.unwrapCorr dd = delta := by
  obtain ⟨h1, h2⟩ := abs_lt.1 h
  have hp := Real.pi_pos
  unfold Spectrum.unwrapCorr
  dsimp only
  have hfl : ⌊(dd + Real.pi) / (2 * Real.pi)⌋ = m := by
    rw [Int.floor_eq_iff]
    constructor
    · rw [le_div_iff₀ (by linarith), hd]
      linarith
    · rw [div_lt_iff₀ (by linarith), hd]
      linarith
  rw [hfl]
  by_cases h3 : |dd| < Real.pi
  · rw [if_pos h3, add_zero]
    obtain ⟨h4, h5⟩ := abs_lt.1 h3
    have h6 : (-1 : ℝ) < m := by
      by_contra h7
      push Not at h7
      nlinarith
    have h7 : (m : ℝ) < 1 := by
      by_contra h8
      push Not at h8
      nlinarith
    have h8 : m = 0 := by
      have h6' : (-1 : ℤ) < m := by exact_mod_cast h6
      have h7' : m < (1 : ℤ) := by exact_mod_cast h7
      omega
    rw [hd, h8]
    simp
  · rw [if_neg h3, if_neg]
    · rw [hd]
      ring
    · rintro ⟨h4, -⟩
      rw [hd] at h4
      linarith

/-- Wrapping a phase does not matter as long as neighbouring bins differ by less than half a turn. -/
theorem unwrap_phase (M : ℕ) (phi phase : ℕ → ℝ) (hphi : ∀ k, k + 1 < M → |phi (k + 1) - phi k| < Real.pi)
    (hw : ∀ k < M, ∃ m : ℤ, phase k = phi k + m * (2 * Real.pi)) (k : ℕ) (hk : k < M) :
    Spectrum.unwrap phase k = phi k + (phase 0 - phi 0) := by
  induction k with
  | zero => simp [Spectrum.unwrap]
  | succ k ih =>
    have h1 := ih (by omega)
    obtain ⟨m, hm⟩ := hw (k + 1) hk
    obtain ⟨n, hn⟩ := hw k (by omega)
    have h2 := unwrap_step (phase (k + 1) - phase k) (phi (k + 1) - phi k) (m - n) (hphi k hk) (by
      rw [hm, hn]
      push_cast
      ring)
    unfold Spectrum.unwrap at h1 ⊢
    rw [sum_range_succ]
    linarith

/-- `_group_delay_direct` with a resolution other than 1 Hz: the difference quotients of the phase,
however it is wrapped. -/
theorem C89_direct_partial (M : ℕ) (hM : 2 ≤ M) (phi phase : ℕ → ℝ) (delta : ℝ) (hdelta : delta ≠ 1)
    (hphi : ∀ k, k + 1 < M → |phi (k + 1) - phi k| < Real.pi)
    (hw : ∀ k < M, ∃ m : ℤ, phase k = phi k + m * (2 * Real.pi)) :
    ∃ g, directPhase M phase delta = .ok g ∧
      g 0 = -((phi 1 - phi 0) / (2 * Real.pi * delta)) ∧
      g (M - 1) = -((phi (M - 1) - phi (M - 2)) / (2 * Real.pi * delta)) ∧
      ∀ k, 0 < k → k < M - 1 → g k = -((phi (k + 1) - phi (k - 1)) / (2 * Real.pi * (2 * delta))) := by
  have hu := unwrap_phase M phi phase hphi hw
  unfold directPhase
  rw [if_neg (by omega), if_pos hdelta]
  refine ⟨_, rfl, ?_, ?_, fun k h0 hk => ?_⟩
  · unfold gradient
    rw [if_pos rfl, hu 1 (by omega), hu 0 (by omega)]
    rw [add_sub_add_right_eq_sub, neg_div, neg_div, div_div, div_div]
    congr 2
    ring
  · unfold gradient
    rw [if_neg (by omega), if_pos rfl, hu _ (by omega), hu _ (by omega)]
    rw [add_sub_add_right_eq_sub, neg_div, neg_div, div_div, div_div]
    congr 2
    ring
  · unfold gradient
    rw [if_neg (by omega), if_neg (by omega), hu _ (by omega), hu _ (by omega)]
    rw [add_sub_add_right_eq_sub, neg_div, neg_div, div_div, div_div]
    congr 2
    ring

theorem rfft_impulse (N d : ℕ) (hd : d < N) (k : ℕ) :
    rfft N (fun n => ((List.range N).map fun n => if n = d then (1 : ℝ) else 0).getD n 0) k = e N (-(k * d)) := by
  unfold rfft dft
  rw [Finset.sum_eq_single_of_mem d (mem_range.2 hd)]
  · dsimp only
    rw [List.getD_eq_getElem _ _ (by simpa using hd)]
    simp
  · intro n hn hne
    dsimp only
    rw [List.getD_eq_getElem _ _ (by simpa using hn)]
    simp [hne]

theorem arg_e (N : ℕ) (d : ℤ) : ∃ m : ℤ, arg (e N d) = 2 * Real.pi * d / N + m * (2 * Real.pi) := by
  have hn : e N d = exp (((2 * Real.pi * d / N : ℝ) : ℂ) * I) := by
    unfold e
    congr 1
    push_cast
    ring
  have h1 := Complex.norm_mul_exp_arg_mul_I (e N d)
  have h2 : ‖e N d‖ = 1 := by
    rw [hn]
    exact Complex.norm_exp_ofReal_mul_I _
  rw [h2, Complex.ofReal_one, one_mul] at h1
  rw [hn] at h1
  obtain ⟨m, hm⟩ := Complex.exp_eq_exp_iff_exists_int.1 h1
  refine ⟨m, ?_⟩
  rw [hn]
  have h3 := congrArg Complex.im hm
  simpa using h3

/-- The differences of the phases of an impulse in the first half. -/
theorem gradient_impulse (N d M : ℕ) (hM : 2 ≤ M) (hd : 2 * d < N) (h : ℝ) (k : ℕ) (hk : k < M) :
    gradient M (Spectrum.unwrap fun k => arg (e N (-(k * d)))) h k = -(2 * Real.pi * d / N) / h := by
  have hp := Real.pi_pos
  have hN : (0 : ℝ) < N := by exact_mod_cast (by omega : 0 < N)
  have hd' : (2 * d : ℝ) < N := by exact_mod_cast hd
  have hu := unwrap_phase M (fun k => -(2 * Real.pi * d / N) * k) (fun k => arg (e N (-(k * d))))
    (fun k _ => by
      push_cast
      rw [show -(2 * Real.pi * d / N) * ((k : ℝ) + 1) - -(2 * Real.pi * d / N) * k = -(2 * Real.pi * d / N) by ring,
        abs_neg, abs_of_nonneg (by positivity), div_lt_iff₀ hN]
      nlinarith)
    (fun k _ => by
      obtain ⟨m, hm⟩ := arg_e N (-(k * d))
      refine ⟨m, ?_⟩
      rw [hm]
      push_cast
      ring)
  unfold gradient
  by_cases h0 : k = 0
  · rw [if_pos h0, hu 1 (by omega), hu 0 (by omega)]
    push_cast
    ring
  rw [if_neg h0]
  by_cases h1 : k = M - 1
  · rw [if_pos h1, hu _ (by omega), hu _ (by omega), Nat.cast_sub (by omega), Nat.cast_sub hM]
    push_cast
    ring
  · rw [if_neg h1, hu _ (by omega), hu _ (by omega), Nat.cast_sub (by omega)]
    push_cast
    rw [show -(2 * Real.pi * d / N) * ((k : ℝ) + 1) + (arg (e N (-(0 * d))) - -(2 * Real.pi * d / N) * 0) -
      (-(2 * Real.pi * d / N) * ((k : ℝ) - 1) + (arg (e N (-(0 * d))) - -(2 * Real.pi * d / N) * 0)) =
      2 * -(2 * Real.pi * d / N) by ring, mul_div_mul_left _ _ two_ne_zero]

theorem direct_impulse (N fs d : ℕ) (hd : 2 * d < N) (hN : 2 ≤ N) :
    ∃ f, groupDelayDirect ((List.range N).map fun n => if n = d then 1 else 0) fs =
      (directPhase (N / 2 + 1) (fun k => arg (e N (-(k * d)))) ((fs : ℝ) / N)).map fun g => (f, g) := by
  unfold groupDelayDirect
  dsimp only
  rw [List.length_map, List.length_range]
  have hlen : (rfftfreq N fs).length = N / 2 + 1 := by simp [rfftfreq]
  rw [hlen, if_neg (by omega)]
  have h1 : (rfftfreq N fs).getD 1 0 - (rfftfreq N fs).getD 0 0 = (fs : ℝ) / N := by
    rw [List.getD_eq_getElem _ _ (by rw [hlen]; omega), List.getD_eq_getElem _ _ (by rw [hlen]; omega)]
    unfold rfftfreq
    simp
  rw [h1]
  unfold direct
  refine ⟨rfftfreq N fs, ?_⟩
  congr 2
  funext k
  rw [rfft_impulse N d (by omega)]

/-- A signal of one second has a resolution of 1 Hz: its group delays are too large by the factor `2 π`.
The signal is an impulse at sample `d`, in the first half. -/
theorem C89_one_second_wrong (fs d : ℕ) (hd : 2 * d < fs) (hfs : 2 ≤ fs) :
    ∃ f g, groupDelayDirect ((List.range fs).map fun n => if n = d then 1 else 0) fs = .ok (f, g) ∧
      ∀ k ≤ fs / 2, g k = 2 * Real.pi * (d / fs) := by
  have hfs' : (fs : ℝ) ≠ 0 := by exact_mod_cast (by omega : fs ≠ 0)
  obtain ⟨f, hf⟩ := direct_impulse fs fs d hd hfs
  rw [hf, div_self hfs']
  unfold directPhase
  rw [if_neg (by omega), if_neg (by simp)]
  refine ⟨f, _, rfl, fun k hk => ?_⟩
  rw [gradient_impulse fs d _ (by omega) hd 1 k (by omega)]
  ring

/-- Otherwise the group delay of an impulse in the first half is its time. -/
theorem C89_impulse_partial (N fs d : ℕ) (hd : 2 * d < N) (hN : 2 ≤ N) (hfs : 0 < fs) (hne : N ≠ fs) :
    ∃ f g, groupDelayDirect ((List.range N).map fun n => if n = d then 1 else 0) fs = .ok (f, g) ∧
      ∀ k ≤ N / 2, g k = d / fs := by
  have hfs' : (fs : ℝ) ≠ 0 := by exact_mod_cast hfs.ne'
  have hN' : (N : ℝ) ≠ 0 := by exact_mod_cast (by omega : N ≠ 0)
  have hne' : (fs : ℝ) / N ≠ 1 := by
    intro h
    rw [div_eq_one_iff_eq hN'] at h
    exact hne (by exact_mod_cast h.symm)
  obtain ⟨f, hf⟩ := direct_impulse N fs d hd hN
  rw [hf]
  unfold directPhase
  rw [if_neg (by omega), if_pos hne']
  refine ⟨f, _, rfl, fun k hk => ?_⟩
  rw [gradient_impulse N d _ (by omega) hd _ k (by omega)]
  have := Real.pi_ne_zero
  field_simp

/-! ### The signal -/

/-- The analytic computation leaves the spectrum parameters of the signal as they are. -/
theorem C89_parameters_partial (store : ℕ → Method) (s : Ref) :
    (parametersAfter store s true).1 (parametersAfter store s true).2.params = store s.params := rfl

/-- The other one changes the method of the signal: both names refer to the same dictionary. -/
theorem C89_parameters_wrong (store : ℕ → Method) (s : Ref) :
    (parametersAfter store s false).1 (parametersAfter store s false).2.params = Method.fft := by
  unfold parametersAfter
  simp

/-! ### Examples -/

/-- A delay of two samples is found. -/
example (w : ℝ) : delayAt [0, 0, 1] [1] 48000 w = 2 / 48000 := by
  have h1 : resp [1] w ≠ 0 := by simp [resp]
  have h := C89_delay [1] [1] 48000 2 w h1 h1
  rw [delayAt_eq [1] [1] 48000 w h1 h1, sub_self, zero_div, zero_add] at h
  exact_mod_cast h

/-- One second at 48 kHz with an impulse after 10 ms: 62.8 ms are reported. -/
example : ∃ f g, groupDelayDirect ((List.range 48000).map fun n => if n = 480 then 1 else 0) 48000 =
    .ok (f, g) ∧ ∀ k ≤ 24000, g k = 2 * Real.pi / 100 := by
  obtain ⟨f, g, h1, h2⟩ := C89_one_second_wrong 48000 480 (by norm_num) (by norm_num)
  refine ⟨f, g, h1, fun k hk => ?_⟩
  rw [h2 k (by omega)]
  norm_num
  ring

end Verif.GroupDelay
