import Verif.Props.C97
import Mathlib.Analysis.SpecialFunctions.Trigonometric.Bounds
import Mathlib.Analysis.SpecialFunctions.Trigonometric.Complex

/-!
# C98: the weighting filters have the responses of their analog prototypes at the warped frequency
-/

namespace Verif.AudioFilters

/-- The analog responses of the standard: four poles of the C-weighting, two more of the
A-weighting. -/
noncomputable def analog (aWeighting : Bool) (s : ℂ) : ℂ :=
  if aWeighting then
    7.39705e9 * s ^ 4 / ((s + 129.4) ^ 2 * (s + 676.7) * (s + 4636) * (s + 76655) ^ 2)
  else 5.91797e9 * s ^ 2 / ((s + 129.4) ^ 2 * (s + 76655) ^ 2)

theorem prod_bilinear (F : ℝ) (e : ℂ) (he : e + 1 ≠ 0) (l : List ℝ) (hl : ∀ z ∈ l, F - z ≠ 0) :
    ((l.map fun z => (F + z) / (F - z)).map fun z : ℝ => e - (z : ℂ)).prod *
        ((l.map fun z => F - z).prod : ℝ) =
      (e + 1) ^ l.length * (l.map fun z : ℝ => F * (e - 1) / (e + 1) - (z : ℂ)).prod := by
  induction l with
  | nil => simp
  | cons a l ih =>
    have ha : (F : ℂ) - a ≠ 0 := by
      have := hl a (by simp)
      exact_mod_cast this
    simp only [List.map_cons, List.prod_cons, List.length_cons]
    push_cast
    have h2 : (e - (F + a) / (F - a)) * ((F : ℂ) - a) = (e + 1) * (F * (e - 1) / (e + 1) - a) := by
      field_simp
      ring
    have ih' := ih fun z hz => hl z (by simp [hz])
    rw [pow_succ]
    linear_combination
      (((l.map fun z => (F + z) / (F - z)).map fun z : ℝ => e - (z : ℂ)).prod *
        ((l.map fun z => F - z).prod : ℝ)) * h2 + ((e + 1) * (F * (e - 1) / (e + 1) - a)) * ih'

/-- The bilinear transform evaluates the analog filter at `s = 2 fs (e - 1) / (e + 1)`. -/
theorem bilinear_response (f : Zpk) (fs w : ℝ) (hlen : f.z.length ≤ f.p.length)
    (hz : ∀ z ∈ f.z, 2 * fs - z ≠ 0) (hp : ∀ p ∈ f.p, 2 * fs - p ≠ 0)
    (he : Complex.exp (w * Complex.I) + 1 ≠ 0) :
    freqz (bilinear f fs) w =
      f.k * (f.z.map fun z : ℝ => ((2 * fs : ℝ) : ℂ) * (Complex.exp (w * Complex.I) - 1) /
          (Complex.exp (w * Complex.I) + 1) - (z : ℂ)).prod /
        (f.p.map fun p : ℝ => ((2 * fs : ℝ) : ℂ) * (Complex.exp (w * Complex.I) - 1) /
          (Complex.exp (w * Complex.I) + 1) - (p : ℂ)).prod := by
  set e := Complex.exp (w * Complex.I) with hedef
  have h1 := prod_bilinear (2 * fs) e he f.z hz
  have h2 := prod_bilinear (2 * fs) e he f.p hp
  have hzne : ((f.z.map fun z => 2 * fs - z).prod : ℝ) ≠ 0 := by
    refine List.prod_ne_zero fun h => ?_
    obtain ⟨z, hz1, hz2⟩ := List.mem_map.mp h
    exact hz z hz1 hz2
  have hpne : ((f.p.map fun z => 2 * fs - z).prod : ℝ) ≠ 0 := by
    refine List.prod_ne_zero fun h => ?_
    obtain ⟨z, hz1, hz2⟩ := List.mem_map.mp h
    exact hp z hz1 hz2
  have hzc : (((f.z.map fun z => 2 * fs - z).prod : ℝ) : ℂ) ≠ 0 := by exact_mod_cast hzne
  have hpc : (((f.p.map fun z => 2 * fs - z).prod : ℝ) : ℂ) ≠ 0 := by exact_mod_cast hpne
  unfold freqz bilinear
  dsimp only
  rw [← hedef, List.map_append, List.prod_append, List.map_replicate, List.prod_replicate]
  have e1 := (eq_div_iff hzc).mpr h1
  have e2 := (eq_div_iff hpc).mpr h2
  rw [e1, e2]
  have hpow : (e + 1) ^ f.p.length = (e + 1) ^ f.z.length * (e + 1) ^ (f.p.length - f.z.length) := by
    rw [← pow_add]
    congr 1
    omega
  have hpn : (e + 1) ^ f.p.length ≠ 0 := pow_ne_zero _ he
  rw [show e - ((-1 : ℝ) : ℂ) = e + 1 by push_cast; ring]
  push_cast
  rw [hpow] at hpn ⊢
  have hn1 : (e + 1) ^ f.z.length ≠ 0 := pow_ne_zero _ he
  have hn2 : (e + 1) ^ (f.p.length - f.z.length) ≠ 0 := pow_ne_zero _ he
  generalize (List.map (fun z : ℝ => 2 * (fs : ℂ) * (e - 1) / (e + 1) - (z : ℂ)) f.p).prod = P at *
  generalize (List.map (fun z : ℝ => 2 * (fs : ℂ) * (e - 1) / (e + 1) - (z : ℂ)) f.z).prod = Z at *
  by_cases hP : P = 0
  · rw [hP]
    simp
  · field_simp

theorem exp_add_one_ne (w : ℝ) (hw : |w| < Real.pi) : Complex.exp (w * Complex.I) + 1 ≠ 0 := by
  intro h
  have h1 := congrArg Complex.re h
  rw [Complex.add_re, Complex.exp_ofReal_mul_I_re, Complex.one_re, Complex.zero_re] at h1
  have h2 : Real.cos (w / 2) ^ 2 = 0 := by
    have := Real.cos_sq (w / 2)
    rw [show 2 * (w / 2) = w by ring] at this
    linarith
  have h3 : 0 < Real.cos (w / 2) := by
    obtain ⟨a, b⟩ := abs_lt.mp hw
    exact Real.cos_pos_of_mem_Ioo ⟨by linarith, by linarith⟩
  nlinarith

theorem tan_half (w : ℝ) (hw : |w| < Real.pi) :
    (Complex.exp (w * Complex.I) - 1) / (Complex.exp (w * Complex.I) + 1) =
      Complex.I * (Real.tan (w / 2) : ℝ) := by
  obtain ⟨a, b⟩ := abs_lt.mp hw
  have h3 : 0 < Real.cos (w / 2) := Real.cos_pos_of_mem_Ioo ⟨by linarith, by linarith⟩
  rw [div_eq_iff (exp_add_one_ne w hw), Complex.exp_mul_I, ← Complex.ofReal_cos, ← Complex.ofReal_sin,
    Real.tan_eq_sin_div_cos]
  have hc : Real.cos w = 2 * Real.cos (w / 2) ^ 2 - 1 := by
    rw [← Real.cos_two_mul]
    congr 1
    ring
  have hs : Real.sin w = 2 * Real.sin (w / 2) * Real.cos (w / 2) := by
    rw [← Real.sin_two_mul]
    congr 1
    ring
  have hsc := Real.sin_sq_add_cos_sq (w / 2)
  rw [hc, hs]
  generalize Real.cos (w / 2) = c at *
  generalize Real.sin (w / 2) = s at *
  have hcn : c ≠ 0 := h3.ne'
  have hcc : (c : ℂ) ≠ 0 := by exact_mod_cast hcn
  have hscc : (s : ℂ) ^ 2 + (c : ℂ) ^ 2 = 1 := by exact_mod_cast hsc
  have hI := Complex.I_sq
  push_cast
  field_simp
  linear_combination 2 * (c : ℂ) * hscc - 2 * (s : ℂ) ^ 2 * c * hI

/-- **C98**, response: at every frequency below the Nyquist frequency the filter has the response of
its analog prototype at the frequency `2 fs tan(w / 2)` (in radians per second). -/
theorem C98_response (a : Bool) (fs : ℝ) (hfs : 0 < fs) :
    ∃ f, weighting a (some fs) = .ok f ∧ ∀ w : ℝ, |w| < Real.pi →
      freqz f w = analog a (Complex.I * (2 * fs * Real.tan (w / 2) : ℝ)) := by
  refine ⟨_, rfl, fun w hw => ?_⟩
  have hs : ((2 * fs : ℝ) : ℂ) * (Complex.exp (w * Complex.I) - 1) /
      (Complex.exp (w * Complex.I) + 1) = Complex.I * (2 * fs * Real.tan (w / 2) : ℝ) := by
    rw [mul_div_assoc, tan_half w hw]
    push_cast
    ring
  rw [bilinear_response _ fs w ?_ ?_ ?_ (exp_add_one_ne w hw), hs]
  · generalize Complex.I * (2 * fs * Real.tan (w / 2) : ℝ) = s
    unfold analog prototype
    cases a
    · simp only [Bool.false_eq_true, if_false, List.map_cons, List.map_nil, List.prod_cons,
        List.prod_nil]
      push_cast
      ring_nf
    · simp only [if_true, List.map_cons, List.map_nil, List.prod_cons, List.prod_nil]
      push_cast
      ring_nf
  · cases a <;> simp [prototype]
  · intro z hz
    have : z = 0 := by cases a <;> simpa [prototype] using hz
    rw [this]
    linarith
  · intro p hp
    have : p < 0 := by
      cases a
      · simp only [prototype, Bool.false_eq_true, if_false, List.mem_cons, List.not_mem_nil,
          or_false] at hp
        rcases hp with rfl | rfl | rfl | rfl <;> norm_num
      · simp only [prototype, if_true, List.mem_cons, List.not_mem_nil, or_false] at hp
        rcases hp with rfl | rfl | rfl | rfl | rfl | rfl <;> norm_num
    linarith

/-- **C98**, stability: for every sampling rate all poles are inside the unit circle. Without sampling
rate there is no filter. -/
theorem C98_stable (a : Bool) :
    weighting a none = .error .typeError ∧
    ∀ fs > 0, ∃ f, weighting a (some fs) = .ok f ∧ (∀ p ∈ f.p, |p| < 1) ∧
      f.z.length = f.p.length ∧ f.p.length = (if a then 6 else 4) := by
  refine ⟨rfl, fun fs hfs => ⟨_, rfl, ?_, ?_, ?_⟩⟩
  · intro p hp
    unfold bilinear at hp
    dsimp only at hp
    obtain ⟨q, hq, rfl⟩ := List.mem_map.mp hp
    have hq0 : q < 0 := by
      cases a
      · simp only [prototype, Bool.false_eq_true, if_false, List.mem_cons, List.not_mem_nil,
          or_false] at hq
        rcases hq with rfl | rfl | rfl | rfl <;> norm_num
      · simp only [prototype, if_true, List.mem_cons, List.not_mem_nil, or_false] at hq
        rcases hq with rfl | rfl | rfl | rfl | rfl | rfl <;> norm_num
    have hd : 0 < 2 * fs - q := by linarith
    rw [abs_lt, div_lt_one hd, lt_div_iff₀ hd]
    constructor <;> linarith
  · cases a <;> simp [bilinear, prototype]
  · cases a <;> simp [bilinear, prototype]

/-- **C98**, ends: constants and the Nyquist frequency are removed. -/
theorem C98_ends (a : Bool) (fs : ℝ) (hfs : 0 < fs) :
    ∃ f, weighting a (some fs) = .ok f ∧ freqz f 0 = 0 ∧ freqz f Real.pi = 0 := by
  refine ⟨_, rfl, ?_, ?_⟩
  · obtain ⟨f, h1, h2⟩ := C98_response a fs hfs
    cases h1
    rw [h2 0 (by simpa using Real.pi_pos)]
    cases a <;> simp [analog]
  · unfold freqz
    have : (List.map (fun z : ℝ => Complex.exp (Real.pi * Complex.I) - (z : ℂ))
        (bilinear (prototype a) fs).z).prod = 0 := by
      rw [List.prod_eq_zero_iff]
      refine List.mem_map.mpr ⟨-1, ?_, by rw [Complex.exp_pi_mul_I]; push_cast; ring⟩
      unfold bilinear
      cases a <;> simp [prototype]
    rw [this]
    simp

theorem norm_sq_add (v q : ℝ) : ‖Complex.I * (v : ℂ) + (q : ℂ)‖ ^ 2 = v ^ 2 + q ^ 2 := by
  rw [Complex.sq_norm, Complex.normSq_apply]
  simp
  ring

/-- Power of the analog responses in terms of the squared frequency. -/
theorem analog_power (v : ℝ) :
    ‖analog true (Complex.I * v)‖ ^ 2 = 7.39705e9 ^ 2 * (v ^ 2) ^ 4 /
      ((v ^ 2 + 129.4 ^ 2) ^ 2 * (v ^ 2 + 676.7 ^ 2) * (v ^ 2 + 4636 ^ 2) * (v ^ 2 + 76655 ^ 2) ^ 2) ∧
    ‖analog false (Complex.I * v)‖ ^ 2 = 5.91797e9 ^ 2 * (v ^ 2) ^ 2 /
      ((v ^ 2 + 129.4 ^ 2) ^ 2 * (v ^ 2 + 76655 ^ 2) ^ 2) := by
  have h1 := norm_sq_add v 129.4
  have h2 := norm_sq_add v 676.7
  have h3 := norm_sq_add v 4636
  have h4 := norm_sq_add v 76655
  have h0 : ‖Complex.I * (v : ℂ)‖ ^ 2 = v ^ 2 := by
    have := norm_sq_add v 0
    rw [Complex.ofReal_zero, add_zero] at this
    rw [this]
    ring
  push_cast at h1 h2 h3 h4
  unfold analog
  constructor
  · rw [if_pos rfl]
    have e : ∀ a b c d f : ℂ, ‖(7.39705e9 : ℂ) * f ^ 4 / (a ^ 2 * b * c * d ^ 2)‖ ^ 2 =
        7.39705e9 ^ 2 * (‖f‖ ^ 2) ^ 4 / ((‖a‖ ^ 2) ^ 2 * ‖b‖ ^ 2 * ‖c‖ ^ 2 * (‖d‖ ^ 2) ^ 2) := by
      intro a b c d f
      rw [norm_div, norm_mul, norm_mul, norm_mul, norm_mul, norm_pow, norm_pow, norm_pow,
        show ‖(7.39705e9 : ℂ)‖ = 7.39705e9 by
          rw [show (7.39705e9 : ℂ) = ((7.39705e9 : ℝ) : ℂ) by push_cast; ring, Complex.norm_real]
          norm_num]
      ring
    rw [e, h0, h1, h2, h3, h4]
  · rw [if_neg (by simp)]
    have e : ∀ a d f : ℂ, ‖(5.91797e9 : ℂ) * f ^ 2 / (a ^ 2 * d ^ 2)‖ ^ 2 =
        5.91797e9 ^ 2 * (‖f‖ ^ 2) ^ 2 / ((‖a‖ ^ 2) ^ 2 * (‖d‖ ^ 2) ^ 2) := by
      intro a d f
      rw [norm_div, norm_mul, norm_mul, norm_pow, norm_pow, norm_pow,
        show ‖(5.91797e9 : ℂ)‖ = 5.91797e9 by
          rw [show (5.91797e9 : ℂ) = ((5.91797e9 : ℝ) : ℂ) by push_cast; ring, Complex.norm_real]
          norm_num]
      ring
    rw [e, h0, h1, h4]

theorem warped_kilohertz (fs : ℝ) (hfs : 44100 ≤ fs) :
    39476089 ≤ (2 * fs * Real.tan (2 * Real.pi * 1000 / fs / 2)) ^ 2 ∧
    (2 * fs * Real.tan (2 * Real.pi * 1000 / fs / 2)) ^ 2 ≤ 39690000 := by
  have hf : 0 < fs := by linarith
  have hpi := Real.pi_pos
  have hpi1 := Real.pi_gt_d4
  have hpi2 := Real.pi_lt_d4
  set x := 2 * Real.pi * 1000 / fs / 2 with hx
  have hxf : x * fs = 1000 * Real.pi := by
    rw [hx]
    field_simp
  have hx0 : 0 < x := by positivity
  have hxs : x ≤ 0.0713 := by
    rw [hx, div_div, div_le_iff₀ (by positivity)]
    norm_num at hpi2 ⊢
    linarith
  have hlow : x ≤ Real.tan x := (Real.lt_tan hx0 (by norm_num at hxs hpi1; linarith)).le
  have hcos : 0 < 1 - x ^ 2 / 2 := by nlinarith
  have hcosle : 1 - x ^ 2 / 2 ≤ Real.cos x := Real.one_sub_sq_div_two_le_cos
  have hup : Real.tan x ≤ x / (1 - x ^ 2 / 2) := by
    rw [Real.tan_eq_sin_div_cos]
    exact div_le_div₀ hx0.le (Real.sin_le hx0.le) hcos hcosle
  have hden : 0.99745 ≤ 1 - x ^ 2 / 2 := by nlinarith
  have hup2 : Real.tan x ≤ x / 0.99745 :=
    hup.trans (div_le_div_of_nonneg_left hx0.le (by norm_num) hden)
  have h1 : 2000 * Real.pi ≤ 2 * fs * Real.tan x := by nlinarith
  have h2 : 2 * fs * Real.tan x ≤ 6300 := by
    have h3 : 2 * fs * Real.tan x ≤ 2 * fs * (x / 0.99745) :=
      mul_le_mul_of_nonneg_left hup2 (by linarith)
    have h4 : 2 * fs * (x / 0.99745) = 2000 * Real.pi / 0.99745 := by
      rw [← mul_div_assoc]
      congr 1
      linarith
    rw [h4] at h3
    refine h3.trans ?_
    rw [div_le_iff₀ (by norm_num)]
    norm_num at hpi2 ⊢
    linarith
  have h5 : 6283 ≤ 2 * fs * Real.tan x := by
    norm_num at hpi1
    linarith
  constructor <;> nlinarith

/-- **C98**, reference: for all sampling rates from 44.1 kHz the gain at 1 kHz is one within 2 percent
(0.18 dB). -/
theorem C98_one_kilohertz (a : Bool) (fs : ℝ) (hfs : 44100 ≤ fs) :
    ∃ f, weighting a (some fs) = .ok f ∧
      0.98 ≤ ‖freqz f (2 * Real.pi * 1000 / fs)‖ ∧ ‖freqz f (2 * Real.pi * 1000 / fs)‖ ≤ 1.02 := by
  obtain ⟨f, h1, h2⟩ := C98_response a fs (by linarith)
  refine ⟨f, h1, ?_⟩
  have hf : 0 < fs := by linarith
  have hw : |2 * Real.pi * 1000 / fs| < Real.pi := by
    have := Real.pi_pos
    rw [abs_of_pos (by positivity), div_lt_iff₀ hf]
    nlinarith
  rw [h2 _ hw]
  obtain ⟨u1, u2⟩ := warped_kilohertz fs hfs
  obtain ⟨pa, pc⟩ := analog_power (2 * fs * Real.tan (2 * Real.pi * 1000 / fs / 2))
  set v := 2 * fs * Real.tan (2 * Real.pi * 1000 / fs / 2) with hv
  set u := v ^ 2 with hu
  have key : (0.98 : ℝ) ^ 2 ≤ ‖analog a (Complex.I * v)‖ ^ 2 ∧
      ‖analog a (Complex.I * v)‖ ^ 2 ≤ (1.02 : ℝ) ^ 2 := by
    cases a
    · rw [pc]
      constructor
      · calc (0.98 : ℝ) ^ 2 ≤ 5.91797e9 ^ 2 * 39476089 ^ 2 /
            ((39690000 + 129.4 ^ 2) ^ 2 * (39690000 + 76655 ^ 2) ^ 2) := by norm_num
          _ ≤ _ := by gcongr
      · calc _ ≤ (5.91797e9 : ℝ) ^ 2 * 39690000 ^ 2 /
            ((39476089 + 129.4 ^ 2) ^ 2 * (39476089 + 76655 ^ 2) ^ 2) := by gcongr
          _ ≤ _ := by norm_num
    · rw [pa]
      constructor
      · calc (0.98 : ℝ) ^ 2 ≤ 7.39705e9 ^ 2 * 39476089 ^ 4 / ((39690000 + 129.4 ^ 2) ^ 2 *
            (39690000 + 676.7 ^ 2) * (39690000 + 4636 ^ 2) * (39690000 + 76655 ^ 2) ^ 2) := by norm_num
          _ ≤ _ := by gcongr
      · calc _ ≤ (7.39705e9 : ℝ) ^ 2 * 39690000 ^ 4 / ((39476089 + 129.4 ^ 2) ^ 2 *
            (39476089 + 676.7 ^ 2) * (39476089 + 4636 ^ 2) * (39476089 + 76655 ^ 2) ^ 2) := by gcongr
          _ ≤ _ := by norm_num
  exact ⟨(sq_le_sq₀ (by norm_num) (norm_nonneg _)).mp key.1,
    (sq_le_sq₀ (norm_nonneg _) (by norm_num)).mp key.2⟩

/-- Concrete case: the A-weighting at 48 kHz. -/
example : ∃ f, weighting true (some 48000) = .ok f ∧ f.p.length = 6 := by
  obtain ⟨f, h1, -, -, h2⟩ := (C98_stable true).2 48000 (by norm_num)
  exact ⟨f, h1, h2⟩

end Verif.AudioFilters
