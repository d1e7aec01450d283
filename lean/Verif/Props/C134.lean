import Verif.Model.FreqDependentWindow
import Verif.Props.C61
import Verif.Props.C92
import Mathlib.Analysis.SpecialFunctions.Pow.Continuity
import Mathlib.Analysis.SpecialFunctions.Pow.Asymptotics

/-!
# C134: frequency-dependent windowing is a DFT with Gaussian windows around the peak
-/

namespace Verif.Fdw

open Complex Finset

/-- The Gaussian window that is 1 at sample `p` and `e` at the distance `c`. -/
noncomputable def gauss (e : ℝ) (c : ℤ) (p k : ℕ) : ℝ := e ^ ((((k : ℝ) - p) / c) ^ 2)

/-- A DFT bin of a signal weighted by `g`. -/
noncomputable def windowedDft (x : List ℝ) (g : ℕ → ℝ) (j : ℕ) : ℂ :=
  ∑ k ∈ range x.length, (x.getD k 0 : ℂ) * g k * exp (-2 * Real.pi * I * j * k / x.length)

theorem gauss_peak (e : ℝ) (c : ℤ) (p : ℕ) : gauss e c p p = 1 := by
  unfold gauss
  norm_num

/-- The specification: at `c` samples from the peak the window is `e`. -/
theorem gauss_end (e : ℝ) (c : ℤ) (hc : c ≠ 0) (p k : ℕ) (hk : |(k : ℤ) - p| = |c|) : gauss e c p k = e := by
  unfold gauss
  have h : ((((k : ℝ) - p) / c) ^ 2) = 1 := by
    have h0 : (c : ℝ) ≠ 0 := by exact_mod_cast hc
    rw [div_pow, div_eq_one_iff_eq (pow_ne_zero 2 h0)]
    have : |((k : ℝ) - p)| = |(c : ℝ)| := by exact_mod_cast hk
    rw [← sq_abs, this, sq_abs]
  rw [h, Real.rpow_one]

theorem roundEven_near (x : ℝ) : |(OctaveBands.roundEven x : ℝ) - x| ≤ 1 / 2 := by
  have h1 := Int.floor_le x
  have h2 := Int.lt_floor_add_one x
  unfold OctaveBands.roundEven
  rw [abs_le]
  split_ifs <;> push_cast <;> constructor <;> linarith

theorem roundEven_half_even (m : ℤ) (h : m % 2 = 0) : OctaveBands.roundEven ((m : ℝ) + 1 / 2) = m := by
  have hf : ⌊(m : ℝ) + 1 / 2⌋ = m := by
    rw [Int.floor_eq_iff]
    constructor <;> linarith
  unfold OctaveBands.roundEven
  rw [hf, if_neg (by linarith), if_neg (by linarith), if_pos h]

theorem roundEven_neg (x : ℝ) : OctaveBands.roundEven (-x) = -OctaveBands.roundEven x := by
  have h1 := Int.floor_le x
  have h2 := Int.lt_floor_add_one x
  set n := ⌊x⌋ with hn
  rcases lt_trichotomy (x - n) (1 / 2) with h | h | h
  · rw [OctaveBands.roundEven_of_lt x n (by linarith) (by linarith)]
    exact OctaveBands.roundEven_of_lt _ _ (by push_cast; linarith) (by push_cast; linarith)
  · have ex : x = (n : ℝ) + 1 / 2 := by linarith
    have ey : -x = ((-n - 1 : ℤ) : ℝ) + 1 / 2 := by
      push_cast
      linarith
    rcases Int.emod_two_eq_zero_or_one n with he | he
    · rw [ey, OctaveBands.roundEven_half _ (by omega), ex, roundEven_half_even _ he]
      ring
    · rw [ey, roundEven_half_even _ (by omega), ex, OctaveBands.roundEven_half _ he]
      ring
  · rw [OctaveBands.roundEven_of_lt x (n + 1) (by push_cast; linarith) (by push_cast; linarith)]
    exact OctaveBands.roundEven_of_lt _ _ (by push_cast; linarith) (by push_cast; linarith)

theorem cycleSamples_eq (fs N : ℕ) (hfs : 0 < fs) (cycles : ℤ) (j : ℕ) :
    cycleSamples fs N cycles j = OctaveBands.roundEven ((N : ℝ) / j * cycles) := by
  unfold cycleSamples
  congr 2
  have : (fs : ℝ) ≠ 0 := by exact_mod_cast hfs.ne'
  rw [div_div_eq_mul_div, mul_comm (j : ℝ), mul_div_mul_left _ _ this]

/-- The window length is the number of cycles of the bin's frequency, up to half a sample; it is at
least two samples for one cycle or more. -/
theorem C134_cycles (fs N : ℕ) (hfs : 0 < fs) (cycles : ℤ) (j : ℕ) :
    |(cycleSamples fs N cycles j : ℝ) - cycles * (N / j)| ≤ 1 / 2 ∧
      (1 ≤ cycles → 1 ≤ j → j ≤ N / 2 → 2 ≤ cycleSamples fs N cycles j) := by
  rw [cycleSamples_eq fs N hfs]
  have h := roundEven_near ((N : ℝ) / j * cycles)
  refine ⟨by rw [mul_comm (cycles : ℝ)]; exact h, fun hc hj hjN => ?_⟩
  have hj0 : (0 : ℝ) < j := by exact_mod_cast hj
  have h2 : (2 : ℝ) ≤ N / j := by
    rw [le_div_iff₀ hj0]
    exact_mod_cast (show 2 * j ≤ N by omega)
  have h3 : (2 : ℝ) ≤ N / j * cycles := by
    have : (1 : ℝ) ≤ cycles := by exact_mod_cast hc
    nlinarith
  have h4 : (1 : ℝ) < (OctaveBands.roundEven ((N : ℝ) / j * cycles) : ℝ) := by
    have := (abs_le.mp h).1
    linarith
  have : (1 : ℤ) < OctaveBands.roundEven ((N : ℝ) / j * cycles) := by exact_mod_cast h4
  omega

theorem exponent (e : ℝ) (he : 0 < e) (he1 : e < 1) (N : ℕ) (hN : 2 ≤ N) (c : ℤ) (hc : c ≠ 0) (p k : ℕ) :
    Real.exp ((alphaFactor e N / c) ^ 2 * position N p k) = gauss e c p k := by
  have hh : half N ≠ 0 := by
    unfold half
    have : (2 : ℝ) ≤ N := by exact_mod_cast hN
    have h0 : (0 : ℝ) < ((N : ℝ) - 1) / 2 := by linarith
    exact h0.ne'
  have hc' : (c : ℝ) ≠ 0 := by exact_mod_cast hc
  have hl : Real.log (1 / e ^ 2) = -2 * Real.log e := by
    rw [one_div, Real.log_inv, Real.log_pow]
    push_cast
    ring
  have hlog : Real.log e < 0 := Real.log_neg he he1
  unfold gauss alphaFactor position
  rw [Real.rpow_def_of_pos he, hl]
  congr 1
  have hs := Real.sq_sqrt (show 0 ≤ -2 * Real.log e by linarith)
  rw [div_pow, mul_pow, hs]
  field_simp

/-- What a row of the spectrum is. -/
theorem C134_row (x : List ℝ) (fs : ℕ) (hfs : 0 < fs) (cycles : ℤ) (e : ℝ) (he : 0 < e) (he1 : e < 1)
    (hx : 2 ≤ x.length) (j : ℕ) (hc : cycleSamples fs x.length cycles j ≠ 0) :
    row x fs cycles e j =
      some (windowedDft x (gauss e (cycleSamples fs x.length cycles j) (Room.argmaxAbs x)) j) := by
  unfold row windowedDft
  dsimp only
  rw [if_neg hc]
  congr 1
  refine sum_congr rfl fun k _ => ?_
  rw [exp_add, ← ofReal_exp, exponent e he he1 x.length hx _ hc]
  have hfs' : (fs : ℝ) ≠ 0 := by exact_mod_cast hfs.ne'
  have hN' : (x.length : ℝ) ≠ 0 := by
    have : 0 < x.length := by omega
    exact_mod_cast this.ne'
  have e1 : (j : ℝ) * fs / x.length * (x.length / fs) = j := by
    field_simp
  rw [e1]
  have e2 : (-2 * I * Real.pi * (((k : ℝ) / x.length : ℝ) : ℂ) * ((j : ℝ) : ℂ)) =
      -2 * Real.pi * I * j * k / x.length := by
    push_cast
    ring
  rw [e2]
  ring

theorem le_maxAbs_at (x : List ℝ) (k : ℕ) (hk : k < x.length) : |x.getD k 0| ≤ Level.maxAbs x := by
  rw [List.getD_eq_getElem _ _ hk]
  exact Level.le_maxAbs x _ (List.getElem_mem hk)

theorem endValue (endDb : ℝ) (h : endDb < 0) :
    0 < Level.fromDb endDb true ∧ Level.fromDb endDb true < 1 := by
  unfold Level.fromDb Level.dbFactor
  refine ⟨Real.rpow_pos_of_pos (by norm_num) _, ?_⟩
  refine Real.rpow_lt_one_of_one_lt_of_neg (by norm_num) ?_
  simp only [if_true]
  linarith

/-- The spectrum: zero at 0 Hz, and at bin `j` the DFT of the response weighted by the Gaussian
window around its first largest sample that reaches the end value after the cycles of this
frequency. -/
theorem C134_spectrum (x : List ℝ) (fs : ℕ) (hfs : 0 < fs) (cycles : ℤ) (endDb : ℝ) (hx : 2 ≤ x.length) :
    (0 ≤ endDb → fdw x fs cycles endDb = .error .assertionError) ∧
    (endDb < 0 → 1 ≤ cycles → ∃ s, fdw x fs cycles endDb = .ok s ∧ s.length = x.length / 2 + 1 ∧
      s.getD 0 none = some 0 ∧ ∃ p < x.length, (∀ k < x.length, |x.getD k 0| ≤ |x.getD p 0|) ∧
        (∀ k < p, |x.getD k 0| < |x.getD p 0|) ∧
        ∀ j, 1 ≤ j → j ≤ x.length / 2 → ∃ c : ℤ, 2 ≤ c ∧ |(c : ℝ) - cycles * (x.length / j)| ≤ 1 / 2 ∧
          s.getD j none = some (windowedDft x (gauss ((10 : ℝ) ^ (endDb / 20)) c p) j)) := by
  unfold fdw
  refine ⟨fun h => by rw [if_pos (not_lt.mpr h)], fun h hc => ?_⟩
  rw [if_neg (not_not.mpr h)]
  obtain ⟨p1, p2, p3⟩ := Room.argmaxAbs_spec x (by
    intro h0
    rw [h0] at hx
    simp at hx)
  refine ⟨_, rfl, by simp, rfl, Room.argmaxAbs x, p1, ?_, ?_, ?_⟩
  · intro k hk
    unfold Room.at_ at p2
    rw [p2]
    exact le_maxAbs_at x k hk
  · intro k hk
    have := p3 k hk
    unfold Room.at_ at p2 this
    rw [p2]
    exact this
  · intro j hj1 hj2
    obtain ⟨c1, c2⟩ := C134_cycles fs x.length hfs cycles j
    have hc2 := c2 hc hj1 hj2
    refine ⟨_, hc2, c1, ?_⟩
    obtain ⟨q, rfl⟩ : ∃ q, j = q + 1 := ⟨j - 1, by omega⟩
    rw [List.getD_cons_succ, List.getD_eq_getElem _ _ (by simpa using hj2), List.getElem_map,
      List.getElem_range]
    obtain ⟨e1, e2⟩ := endValue endDb h
    rw [C134_row x fs hfs cycles _ e1 e2 hx (q + 1) (by omega)]
    unfold Level.fromDb Level.dbFactor
    simp only [if_true]

/-- A response that is a single impulse has its exact spectrum, for all cycles and end values, except
at 0 Hz. -/
theorem C134_impulse (N p : ℕ) (hN : 2 ≤ N) (hp : p < N) (a : ℝ) (ha : a ≠ 0) (fs : ℕ) (hfs : 0 < fs)
    (cycles : ℤ) (hc : 1 ≤ cycles) (e : ℝ) (he : 0 < e) (he1 : e < 1) (j : ℕ) (hj : 1 ≤ j) (hjN : j ≤ N / 2) :
    row ((List.range N).map fun k => if k = p then a else 0) fs cycles e j =
      some (a * exp (-2 * Real.pi * I * j * p / N)) := by
  set x := (List.range N).map fun k => if k = p then a else 0 with hx
  have hlen : x.length = N := by simp [hx]
  have hget : ∀ k < N, x.getD k 0 = if k = p then a else 0 := by
    intro k hk
    rw [List.getD_eq_getElem _ _ (by rw [hlen]; exact hk)]
    simp [hx]
  obtain ⟨p1, p2, p3⟩ := Room.argmaxAbs_spec x (by
    intro h0
    rw [h0] at hlen
    simp at hlen
    omega)
  have hpk : Room.argmaxAbs x = p := by
    have h1 := le_maxAbs_at x p (by omega)
    unfold Room.at_ at p2
    rw [← p2] at h1
    rw [hget p hp, if_pos rfl, hget _ (by omega)] at h1
    by_contra hne
    rw [if_neg hne, abs_zero] at h1
    exact ha (abs_eq_zero.mp (le_antisymm h1 (abs_nonneg a)))
  have hc2 := (C134_cycles fs N hfs cycles j).2 hc hj hjN
  rw [C134_row x fs hfs cycles e he he1 (by omega) j (by rw [hlen]; omega)]
  congr 1
  unfold windowedDft
  rw [hlen, hpk, sum_eq_single p]
  · rw [hget p hp, if_pos rfl, gauss_peak, ofReal_one, mul_one]
  · intro k hk hne
    rw [hget k (mem_range.mp hk), if_neg hne]
    simp
  · intro h
    exact absurd (mem_range.mpr hp) h

theorem gauss_bounds (e : ℝ) (he : 0 < e) (he1 : e < 1) (c : ℤ) (p k : ℕ) :
    0 < gauss e c p k ∧ gauss e c p k ≤ 1 := by
  unfold gauss
  exact ⟨Real.rpow_pos_of_pos he _, Real.rpow_le_one he.le he1.le (sq_nonneg _)⟩

/-- No bin is larger than the sum of the magnitudes of the response. -/
theorem C134_bound (x : List ℝ) (fs : ℕ) (hfs : 0 < fs) (cycles : ℤ) (e : ℝ) (he : 0 < e) (he1 : e < 1)
    (hx : 2 ≤ x.length) (j : ℕ) (v : ℂ) (h : row x fs cycles e j = some v) :
    ‖v‖ ≤ ∑ k ∈ range x.length, |x.getD k 0| := by
  by_cases hc : cycleSamples fs x.length cycles j = 0
  · unfold row at h
    dsimp only at h
    rw [if_pos hc] at h
    exact absurd h (by simp)
  rw [C134_row x fs hfs cycles e he he1 hx j hc] at h
  rw [← Option.some.inj h]
  unfold windowedDft
  refine (norm_sum_le _ _).trans (sum_le_sum fun k _ => ?_)
  have e1 : (-2 * Real.pi * I * j * k / x.length : ℂ) = ((-2 * Real.pi * j * k / x.length : ℝ) : ℂ) * I := by
    push_cast
    ring
  obtain ⟨g1, g2⟩ := gauss_bounds e he he1 (cycleSamples fs x.length cycles j) (Room.argmaxAbs x) k
  rw [norm_mul, norm_mul, e1, norm_exp_ofReal_mul_I, mul_one, norm_real, norm_real, Real.norm_eq_abs,
    Real.norm_of_nonneg g1.le]
  exact mul_le_of_le_one_right (abs_nonneg _) g2

/-- With more and more cycles the spectrum tends to the DFT of the response (except at 0 Hz). -/
theorem C134_limit (x : List ℝ) (fs : ℕ) (hfs : 0 < fs) (e : ℝ) (he : 0 < e) (he1 : e < 1)
    (hx : 2 ≤ x.length) (j : ℕ) (hj : 1 ≤ j) (hjN : j ≤ x.length / 2) :
    ∃ v : ℕ → ℂ, (∀ cycles : ℕ, 1 ≤ cycles → row x fs cycles e j = some (v cycles)) ∧
      Filter.Tendsto v Filter.atTop (nhds (windowedDft x (fun _ => 1) j)) := by
  refine ⟨fun cycles => windowedDft x (gauss e (cycleSamples fs x.length cycles j) (Room.argmaxAbs x)) j,
    fun cycles hc => ?_, ?_⟩
  · have := (C134_cycles fs x.length hfs cycles j).2 (by exact_mod_cast hc) hj hjN
    exact C134_row x fs hfs cycles e he he1 hx j (by omega)
  · unfold windowedDft
    refine tendsto_finsetSum _ fun k _ => ?_
    refine Filter.Tendsto.mul_const _ (Filter.Tendsto.const_mul _ ?_)
    have hj0 : (0 : ℝ) < j := by exact_mod_cast hj
    have hc : Filter.Tendsto (fun n : ℕ => (cycleSamples fs x.length n j : ℝ)) Filter.atTop Filter.atTop := by
      refine Filter.tendsto_atTop_mono (f := fun n : ℕ => (n : ℝ) - 1 / 2) (fun n => ?_) ?_
      · have h1 := (abs_le.mp (C134_cycles fs x.length hfs n j).1).1
        have h2 : (1 : ℝ) ≤ x.length / j := by
          rw [le_div_iff₀ hj0, one_mul]
          exact_mod_cast (show j ≤ x.length by omega)
        have h3 : (0 : ℝ) ≤ n := Nat.cast_nonneg n
        push_cast at h1 ⊢
        nlinarith
      · exact Filter.tendsto_atTop_add_const_right _ _ tendsto_natCast_atTop_atTop
    have hg : Filter.Tendsto (fun n : ℕ => gauss e (cycleSamples fs x.length n j) (Room.argmaxAbs x) k)
        Filter.atTop (nhds 1) := by
      unfold gauss
      have h0 : Filter.Tendsto (fun n : ℕ => (((k : ℝ) - Room.argmaxAbs x) / (cycleSamples fs x.length n j : ℝ)) ^ 2)
          Filter.atTop (nhds 0) := by
        have := (hc.const_div_atTop ((k : ℝ) - Room.argmaxAbs x)).pow 2
        simpa using this
      have := (Real.continuousAt_const_rpow (a := e) (b := 0) he.ne').tendsto.comp h0
      simpa [Function.comp_def] using this
    exact (continuous_ofReal.tendsto 1).comp hg

/-- More cycles give a window that is nowhere smaller, and higher frequencies get windows that are
nowhere larger. -/
theorem C134_monotone (fs N : ℕ) (hfs : 0 < fs) (e : ℝ) (he : 0 < e) (he1 : e < 1) (m n : ℤ) (i j : ℕ)
    (hm : 1 ≤ m) (hmn : m ≤ n) (hi : 1 ≤ i) (hij : i ≤ j) (hj : j ≤ N / 2) (p k : ℕ) :
    gauss e (cycleSamples fs N m j) p k ≤ gauss e (cycleSamples fs N n i) p k := by
  have hmono : ∀ x y : ℝ, x ≤ y → OctaveBands.roundEven x ≤ OctaveBands.roundEven y := by
    intro x y hxy
    have a1 := Int.floor_le x
    have a2 := Int.lt_floor_add_one x
    have b1 := Int.floor_le y
    have b2 := Int.lt_floor_add_one y
    have hfl : ⌊x⌋ ≤ ⌊y⌋ := Int.floor_mono hxy
    rcases hfl.eq_or_lt with h | h
    · unfold OctaveBands.roundEven
      rw [h] at a1 a2 ⊢
      split_ifs <;> first | omega | (exfalso; linarith)
    · have hx : OctaveBands.roundEven x ≤ ⌊x⌋ + 1 := by
        unfold OctaveBands.roundEven
        split_ifs <;> omega
      have hy : ⌊y⌋ ≤ OctaveBands.roundEven y := by
        unfold OctaveBands.roundEven
        split_ifs <;> omega
      omega
  have hi0 : (0 : ℝ) < i := by exact_mod_cast hi
  have hle : cycleSamples fs N m j ≤ cycleSamples fs N n i := by
    rw [cycleSamples_eq fs N hfs, cycleSamples_eq fs N hfs]
    refine hmono _ _ ?_
    have h1 : (N : ℝ) / j ≤ N / i := by
      have : (i : ℝ) ≤ j := by exact_mod_cast hij
      gcongr
    have h2 : (m : ℝ) ≤ n := by exact_mod_cast hmn
    have h3 : (0 : ℝ) ≤ m := by exact_mod_cast (show (0 : ℤ) ≤ m by omega)
    have h4 : (0 : ℝ) ≤ (N : ℝ) / i := by positivity
    exact mul_le_mul h1 h2 h3 h4
  have h2 := (C134_cycles fs N hfs m j).2 hm (by omega) hj
  unfold gauss
  refine Real.rpow_le_rpow_of_exponent_ge he he1.le ?_
  rw [div_pow, div_pow]
  have hc1 : (0 : ℝ) < cycleSamples fs N m j := by exact_mod_cast (show 0 < cycleSamples fs N m j by omega)
  have hc2 : (cycleSamples fs N m j : ℝ) ≤ cycleSamples fs N n i := by exact_mod_cast hle
  have : (cycleSamples fs N m j : ℝ) ^ 2 ≤ (cycleSamples fs N n i : ℝ) ^ 2 :=
    pow_le_pow_left₀ hc1.le hc2 2
  exact div_le_div_of_nonneg_left (sq_nonneg _) (by positivity) this

/-- Not so: the value at 0 Hz is a windowed DFT.  It is zero for every response, also for a single
impulse, whose spectrum is the same at all frequencies. -/
theorem C134_dc_wrong (fs : ℕ) (cycles : ℤ) (endDb : ℝ) (h : endDb < 0) :
    ∃ s, fdw [1, 0] fs cycles endDb = .ok s ∧
      ∀ g : ℕ → ℝ, g 0 = 1 → s.getD 0 none ≠ some (windowedDft [1, 0] g 0) := by
  unfold fdw
  rw [if_neg (not_not.mpr h)]
  refine ⟨_, rfl, fun g hg => ?_⟩
  unfold windowedDft
  simp [sum_range_succ, hg]

/-- Not so: numbers of cycles that are not positive are refused.  A negative number gives the result
of the positive one, zero gives nan. -/
theorem C134_negative_cycles_wrong (x : List ℝ) (fs : ℕ) (cycles : ℤ) (e : ℝ) (j : ℕ) :
    row x fs (-cycles) e j = row x fs cycles e j ∧ row x fs 0 e j = none := by
  have hneg : cycleSamples fs x.length (-cycles) j = -cycleSamples fs x.length cycles j := by
    unfold cycleSamples
    rw [Int.cast_neg, mul_neg, roundEven_neg]
  constructor
  · unfold row
    dsimp only
    rw [hneg]
    simp only [neg_eq_zero, Int.cast_neg, div_neg, neg_sq]
  · unfold row
    dsimp only
    rw [if_pos]
    unfold cycleSamples OctaveBands.roundEven
    norm_num

/-- Concrete case: four samples with the peak at sample 1. -/
example : ∃ s, fdw [0, 1, 0, 0] 4 1 (-50) = .ok s ∧ s.length = 3 := by
  obtain ⟨s, h1, h2, -⟩ := (C134_spectrum [0, 1, 0, 0] 4 (by norm_num) 1 (-50) (by norm_num)).2
    (by norm_num) (by norm_num)
  exact ⟨s, h1, by rw [h2]; rfl⟩

end Verif.Fdw
