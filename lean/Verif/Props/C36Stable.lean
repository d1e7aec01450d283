import Verif.Props.C36
import Verif.Props.C34
import Verif.Lemmas.StableFilter

/-!
# C36 (continued): impulse responses and transfer functions of recursive filters
-/

namespace Verif.Bank

open SignalData LFilter StableFilter

/-- The denominator `a₀ + a₁ w + a₂ w² + …`, `w = z⁻¹`, has no zero with `|w| ≤ 1`: all poles
are strictly inside the unit circle. -/
def StableDen (a : List ℝ) : Prop :=
  ∀ w : ℂ, ‖w‖ ≤ 1 → ∑ m ∈ Finset.range a.length, (a.getD m 0 : ℂ) * w ^ m ≠ 0

/-- All denominators of a filter are stable. -/
def Filt.Stable : Filt ℝ → Prop
  | .fir _ => True
  | .ba _ a => StableDen a
  | .sos secs => ∀ s ∈ secs, StableDen s.2

/-- `h` is absolutely summable and its transform is `T` on and outside the unit circle of
`z = w⁻¹`. -/
def TransformIs (h : ℕ → ℝ) (T : ℂ → ℂ) : Prop :=
  Summable (fun n => |h n|) ∧ ∀ w : ℂ, ‖w‖ ≤ 1 → HasSum (fun n => (h n : ℂ) * w ^ n) (T w)

/-- Embedding of a real sequence. -/
noncomputable def cplx (H : PowerSeries ℝ) : PowerSeries ℂ := PowerSeries.map Complex.ofRealHom H

theorem cplx_coeff (H : PowerSeries ℝ) (n : ℕ) :
    PowerSeries.coeff n (cplx H) = ((PowerSeries.coeff n H : ℝ) : ℂ) := by simp [cplx]

theorem cplx_zseries (a : List ℝ) :
    cplx (zseries a) = (((toPoly a).map Complex.ofRealHom : Polynomial ℂ) : PowerSeries ℂ) := by
  ext n
  rw [cplx_coeff, zseries_coeff, Polynomial.coeff_coe, Polynomial.coeff_map, toPoly_coeff]
  rfl

theorem eval_toPoly (a : List ℝ) (w : ℂ) :
    ((toPoly a).map Complex.ofRealHom).eval w = evalPoly (a.map Complex.ofReal) w := by
  rw [Polynomial.eval_map]
  exact (evalPoly_eq Complex.ofRealHom w a).symm

theorem StableDen.eval {a : List ℝ} (h : StableDen a) (w : ℂ) (hw : ‖w‖ ≤ 1) :
    ((toPoly a).map Complex.ofRealHom).eval w ≠ 0 := by
  rw [eval_toPoly]
  have := h w hw
  unfold evalPoly
  rw [List.length_map]
  convert this using 2 with m hm
  have hm' := Finset.mem_range.mp hm
  rw [List.getD_eq_getElem _ _ (by simpa using hm'), List.getD_eq_getElem _ _ hm']
  simp

theorem ratio_value (b a : List ℝ) (h0 : a.getD 0 0 ≠ 0) (h : StableDen a) :
    AbsSum (cplx (ratio b a)) ∧ ∀ w : ℂ, ‖w‖ ≤ 1 → valueAt (cplx (ratio b a)) w =
      evalPoly (b.map Complex.ofReal) w / evalPoly (a.map Complex.ofReal) w := by
  have hm : cplx (zseries a) * cplx (ratio b a) = cplx (zseries b) := by
    unfold cplx
    rw [← map_mul]
    congr 1
    unfold ratio
    rw [mul_comm, mul_assoc, PowerSeries.inv_mul_cancel, mul_one]
    rw [← PowerSeries.coeff_zero_eq_constantCoeff_apply, zseries_coeff]
    exact h0
  rw [cplx_zseries, cplx_zseries] at hm
  obtain ⟨h1, h2⟩ := quotient _ _ _ h.eval hm
  refine ⟨h1, fun w hw => ?_⟩
  rw [h2 w hw, eval_toPoly, eval_toPoly]

theorem fir_value (b : List ℝ) :
    AbsSum (cplx (zseries b)) ∧ ∀ w : ℂ, valueAt (cplx (zseries b)) w =
      evalPoly (b.map Complex.ofReal) w := by
  rw [cplx_zseries]
  exact ⟨absSum_poly _, fun w => by rw [valueAt_poly, eval_toPoly]⟩

theorem one_value : AbsSum (cplx 1) ∧ ∀ w : ℂ, valueAt (cplx 1) w = 1 := by
  have h : cplx 1 = ((1 : Polynomial ℂ) : PowerSeries ℂ) := by simp [cplx]
  rw [h]
  exact ⟨absSum_poly _, fun w => by rw [valueAt_poly, Polynomial.eval_one]⟩

theorem mul_value {H G : PowerSeries ℝ} {S T : ℂ → ℂ}
    (h : AbsSum (cplx H) ∧ ∀ w : ℂ, ‖w‖ ≤ 1 → valueAt (cplx H) w = S w)
    (g : AbsSum (cplx G) ∧ ∀ w : ℂ, ‖w‖ ≤ 1 → valueAt (cplx G) w = T w) :
    AbsSum (cplx (H * G)) ∧ ∀ w : ℂ, ‖w‖ ≤ 1 → valueAt (cplx (H * G)) w = S w * T w := by
  have e : cplx (H * G) = cplx H * cplx G := by unfold cplx; exact map_mul _ _ _
  rw [e]
  exact ⟨h.1.mul g.1, fun w hw => by rw [valueAt_mul h.1 g.1 w hw, h.2 w hw, g.2 w hw]⟩

theorem add_value {H G : PowerSeries ℝ} {S T : ℂ → ℂ}
    (h : AbsSum (cplx H) ∧ ∀ w : ℂ, ‖w‖ ≤ 1 → valueAt (cplx H) w = S w)
    (g : AbsSum (cplx G) ∧ ∀ w : ℂ, ‖w‖ ≤ 1 → valueAt (cplx G) w = T w) :
    AbsSum (cplx (H + G)) ∧ ∀ w : ℂ, ‖w‖ ≤ 1 → valueAt (cplx (H + G)) w = S w + T w := by
  have e : cplx (H + G) = cplx H + cplx G := by unfold cplx; exact map_add _ _ _
  rw [e]
  constructor
  · refine Summable.of_nonneg_of_le (fun _ => norm_nonneg _) (fun n => ?_) (Summable.add h.1 g.1)
    rw [map_add]
    exact norm_add_le _ _
  · intro w hw
    rw [← h.2 w hw, ← g.2 w hw]
    have := (h.1.hasSum w hw).add (g.1.hasSum w hw)
    rw [← this.tsum_eq, valueAt]
    refine tsum_congr fun n => ?_
    rw [map_add, add_mul]

theorem filt_value (F : Filt ℝ) (hp : F.Proper) (hs : F.Stable) :
    AbsSum (cplx F.H) ∧ ∀ w : ℂ, ‖w‖ ≤ 1 → valueAt (cplx F.H) w = F.tf Complex.ofReal w := by
  cases F with
  | fir b =>
    refine ⟨(fir_value b).1, fun w _ => ?_⟩
    simp only [Filt.tf]
    rw [show (Filt.fir b).H = zseries b from rfl, (fir_value b).2 w]
    simp [evalPoly]
  | ba b a => exact ratio_value b a hp hs
  | sos secs =>
    simp only [Filt.H, Filt.tf, Filt.Stable, Filt.Proper] at hp hs ⊢
    induction secs with
    | nil => simpa using ⟨one_value.1, fun w _ => one_value.2 w⟩
    | cons s rest ih =>
      simp only [List.map_cons, List.prod_cons]
      exact mul_value (ratio_value s.1 s.2 (hp s (by simp)) (hs s (by simp)))
        (ih (fun s h => hp s (by simp [h])) fun s h => hs s (by simp [h]))

theorem transformIs_of_value {H : PowerSeries ℝ} {T : ℂ → ℂ}
    (h : AbsSum (cplx H) ∧ ∀ w : ℂ, ‖w‖ ≤ 1 → valueAt (cplx H) w = T w) :
    TransformIs (fun n => PowerSeries.coeff n H) T := by
  constructor
  · refine h.1.congr fun n => ?_
    rw [cplx_coeff, Complex.norm_real, Real.norm_eq_abs]
  · intro w hw
    have := h.1.hasSum w hw
    rw [h.2 w hw] at this
    simpa only [cplx_coeff] using this

theorem prod_value (Fs : List (Filt ℝ)) (hp : ∀ F ∈ Fs, F.Proper) (hs : ∀ F ∈ Fs, F.Stable) :
    AbsSum (cplx (Fs.map Filt.H).prod) ∧ ∀ w : ℂ, ‖w‖ ≤ 1 →
      valueAt (cplx (Fs.map Filt.H).prod) w = (Fs.map (Filt.tf Complex.ofReal w)).prod := by
  induction Fs with
  | nil => simpa using ⟨one_value.1, fun w _ => one_value.2 w⟩
  | cons F Fs ih =>
    simp only [List.map_cons, List.prod_cons]
    exact mul_value (filt_value F (hp F (by simp)) (hs F (by simp)))
      (ih (fun F h => hp F (by simp [h])) fun F h => hs F (by simp [h]))

theorem sum_value (Fs : List (Filt ℝ)) (hp : ∀ F ∈ Fs, F.Proper) (hs : ∀ F ∈ Fs, F.Stable) :
    AbsSum (cplx (Fs.map Filt.H).sum) ∧ ∀ w : ℂ, ‖w‖ ≤ 1 →
      valueAt (cplx (Fs.map Filt.H).sum) w = (Fs.map (Filt.tf Complex.ofReal w)).sum := by
  induction Fs with
  | nil =>
    simp only [List.map_nil, List.sum_nil]
    have h : cplx 0 = ((0 : Polynomial ℂ) : PowerSeries ℂ) := by simp [cplx]
    rw [h]
    exact ⟨absSum_poly _, fun w _ => by rw [valueAt_poly, Polynomial.eval_zero]⟩
  | cons F Fs ih =>
    simp only [List.map_cons, List.sum_cons]
    exact add_value (filt_value F (hp F (by simp)) (hs F (by simp)))
      (ih (fun F h => hp F (by simp [h])) fun F h => hs F (by simp [h]))

theorem sample_of_agree {n : ℕ} {t : State ℝ} {H : PowerSeries ℝ} (hn : 2 ≤ n)
    (ht : t.HasShape n 1) (h : AgreeUpTo n (chanZ t 0) (H * chanZ (impulse n) 0)) (k : ℕ)
    (hk : k < n) : t.sample k 0 = PowerSeries.coeff k H := by
  rw [impulse_Z n (by omega), mul_one] at h
  have := h k hk
  unfold chanZ at this
  rw [ht.1, zseries_coeff, getD_map_range, if_pos hk] at this
  exact this

/-- For every bank of stable recursive filters there is one impulse response `h`: filtering an
impulse of any length `n` (sequential mode, no amplitude constraint) returns the first `n`
samples of `h`, `h` is absolutely summable, and its transform is exactly what
`get_transfer_function` returns, at every point on or outside the unit circle. The same holds
for summed mode, where `get_transfer_function` returns one too much. -/
theorem C36_stable_response (Fs : List (Filt ℝ)) (hp : ∀ F ∈ Fs, F.Proper)
    (hs : ∀ F ∈ Fs, F.Stable) :
    (∃ h : ℕ → ℝ, (∀ n, 2 ≤ n → ∃ t, sequential Fs (impulse n) = .ok t ∧ t.HasShape n 1 ∧
        ∀ k < n, t.sample k 0 = h k) ∧
      TransformIs h fun w => tfSequential Complex.ofReal w Fs) ∧
    (∃ h : ℕ → ℝ, (∀ n, 2 ≤ n → ∃ t, summed Fs (impulse n) = .ok t ∧ t.HasShape n 1 ∧
        ∀ k < n, t.sample k 0 = h k) ∧
      TransformIs h fun w => tfSummed Complex.ofReal w Fs - 1) := by
  have hsh : ∀ n, 2 ≤ n → Shaped (impulse n : State ℝ) := fun n hn =>
    ⟨le_rfl, show 1 ≤ n by omega, show n ≠ 1 by omega⟩
  refine ⟨⟨_, fun n hn => ?_, transformIs_of_value (H := (Fs.map Filt.H).prod) ⟨(prod_value Fs hp hs).1,
      fun w hw => ?_⟩⟩, ⟨_, fun n hn => ?_, transformIs_of_value (H := (Fs.map Filt.H).sum)
      ⟨(sum_value Fs hp hs).1, fun w hw => ?_⟩⟩⟩
  · obtain ⟨t, ht, hshape, hval⟩ := C36_sequential Fs hp (impulse n) (hsh n hn) rfl
    exact ⟨t, ht, hshape, sample_of_agree hn hshape (hval 0 Nat.one_pos)⟩
  · rw [(prod_value Fs hp hs).2 w hw, (C36_tf_partial _ w Fs).1]
  · obtain ⟨t, ht, hshape, hval⟩ := C36_summed Fs hp (impulse n) (hsh n hn) rfl
    exact ⟨t, ht, hshape, sample_of_agree hn hshape (hval 0 Nat.one_pos)⟩
  · rw [(sum_value Fs hp hs).2 w hw, (C36_tf_summed_wrong _ w Fs).1]
    ring

/-- A second order section with poles inside the unit circle has a stable denominator. -/
theorem stableDen_of_coeffs (c : Biquad.Coeffs) (h : c.Stable) : StableDen [c.a0, c.a1, c.a2] := by
  intro w hw
  have e : ∑ m ∈ Finset.range [c.a0, c.a1, c.a2].length,
      (([c.a0, c.a1, c.a2].getD m 0 : ℝ) : ℂ) * w ^ m = c.a0 + c.a1 * w + c.a2 * w ^ 2 := by
    simp [Finset.sum_range_succ]
  rw [e]
  intro h0
  by_cases hw0 : w = 0
  · subst hw0
    simp at h0
    exact h.1 h0
  · have h1 := h.2 w⁻¹ (by
      field_simp
      linear_combination h0)
    rw [norm_inv] at h1
    have : 0 < ‖w‖ := norm_pos_iff.mpr hw0
    have h2 : 1 ≤ ‖w‖⁻¹ := one_le_inv_iff₀.mpr ⟨this, hw⟩
    linarith

/-- The impulse response of every equaliser design converges, and the transform of the impulse
response at every frequency is the response for which the gains of C34 are proved. -/
theorem C34_impulse_response (t : Biquad.EqType) (fs f gain q : ℝ) (h : Biquad.Inside fs f)
    (hq : 0 < q) :
    let c := Biquad.biquad t fs f gain q
    ∃ ir : ℕ → ℝ, (∀ n, 2 ≤ n → ∃ s, filterSignal (.ba [c.b0, c.b1, c.b2] [c.a0, c.a1, c.a2])
        (impulse n) = .ok s ∧ s.HasShape n 1 ∧ ∀ k < n, s.sample k 0 = ir k) ∧
      Summable (fun n => |ir n|) ∧
      ∀ w : ℝ, HasSum (fun n => (ir n : ℂ) * Complex.exp (-(w * Complex.I)) ^ n) (c.response w) := by
  intro c
  have hst := Biquad.C34_stable t fs f gain q h hq
  obtain ⟨⟨ir, h1, h2, h3⟩, -⟩ := C36_stable_response [.ba [c.b0, c.b1, c.b2] [c.a0, c.a1, c.a2]]
    (by simpa [Filt.Proper] using hst.1) (by simpa [Filt.Stable] using stableDen_of_coeffs c hst)
  refine ⟨ir, fun n hn => ?_, h2, fun w => ?_⟩
  · obtain ⟨s, hs, hr⟩ := h1 n hn
    refine ⟨s, ?_, hr⟩
    rw [← hs]
    simp [sequential]
  · have := h3 (Complex.exp (-(w * Complex.I))) (by
      rw [Complex.norm_exp]; simp)
    convert this using 1
    simp [tfSequential, Filt.tf, evalPoly, Finset.sum_range_succ, Biquad.Coeffs.response,
      Biquad.poly]

/-- Concrete case: the one-pole filter `1 / (1 - z⁻¹ / 2)`. -/
example : (Filt.ba [1] [1, -(1 / 2 : ℝ)]).Proper ∧ (Filt.ba [1] [1, -(1 / 2 : ℝ)]).Stable := by
  refine ⟨by simp [Filt.Proper], fun w hw h => ?_⟩
  simp [Finset.sum_range_succ] at h
  have h1 : w = 2 := by linear_combination (-2) * h
  rw [h1] at hw
  norm_num at hw

end Verif.Bank
