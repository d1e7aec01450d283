import Verif.Lemmas.ResampleFilter
import Mathlib.Analysis.SpecialFunctions.Trigonometric.Basic
import Mathlib.Analysis.SpecialFunctions.Trigonometric.DerivHyp
import Mathlib.Tactic.Positivity

/-!
# C115: resampled filters
-/

namespace Verif.ResampleFilter

/-- How many of the zeros at -1 get lost: none for equally many zeros and poles, all of them for
fewer zeros than poles, and at most the surplus of zeros otherwise. -/
noncomputable def lost (F : Zpk) : ℕ :=
  if F.z.length = F.p.length then 0
  else if F.z.length < F.p.length then F.z.count (-1)
  else min (F.z.count (-1)) (F.z.length - F.p.length)

theorem resample_eq (F : Zpk) (fs fs' : ℕ) (h1 : (-1 : ℂ) ∉ F.p) :
    resampleFilter F fs fs' =
      if (2 * fs' : ℂ) ∈ analogZeros F (2 * fs) ∨ (2 * fs' : ℂ) ∈ analogPoles F (2 * fs) then .ok none
      else .ok (some
        ⟨(analogZeros F (2 * fs)).map (toDigital (2 * fs')) ++
            List.replicate ((effPoles F).length - (effZeros F).length) (-1),
          (analogPoles F (2 * fs)).map (toDigital (2 * fs')),
          F.k / (((analogZeros F (2 * fs)).map fun w => (2 * fs : ℂ) - w).prod /
            ((analogPoles F (2 * fs)).map fun w => (2 * fs : ℂ) - w).prod).re *
          (((analogZeros F (2 * fs)).map fun w => (2 * fs' : ℂ) - w).prod /
            ((analogPoles F (2 * fs)).map fun w => (2 * fs' : ℂ) - w).prod).re⟩) := by
  have hl : (analogZeros F (2 * fs)).length = (effZeros F).length := by rw [analogZeros_eq]; simp
  have hp : (analogPoles F (2 * fs)).length = (effPoles F).length := by rw [analogPoles_eq]; simp
  have := effLength_le F
  unfold resampleFilter bilinearZpk
  simp only
  rw [if_neg h1, if_neg (by omega), hl, hp]

theorem toAnalog_re (f : ℝ) (w : ℂ) :
    (toAnalog f w).re = f * (Complex.normSq w - 1) / Complex.normSq (w + 1) := by
  unfold toAnalog
  rw [Complex.div_re]
  simp only [Complex.normSq_apply, Complex.mul_re, Complex.mul_im, Complex.ofReal_re,
    Complex.ofReal_im, Complex.sub_re, Complex.sub_im, Complex.add_re, Complex.add_im,
    Complex.one_re, Complex.one_im]
  ring

theorem normSq_add_one_pos {w : ℂ} (h : w ≠ -1) : 0 < Complex.normSq (w + 1) :=
  Complex.normSq_pos.mpr (add_one_ne h)

theorem toAnalog_left (f : ℝ) (hf : 0 < f) (w : ℂ) (h : ‖w‖ < 1) : (toAnalog f w).re < 0 := by
  have h1 : w ≠ -1 := by rintro rfl; simp at h
  have h2 : Complex.normSq w < 1 := by
    rw [Complex.normSq_eq_norm_sq]
    nlinarith [norm_nonneg w]
  rw [toAnalog_re]
  exact div_neg_of_neg_of_pos (mul_neg_of_pos_of_neg hf (by linarith)) (normSq_add_one_pos h1)

theorem toAnalog_left' (f : ℝ) (hf : 0 < f) (w : ℂ) (h : ‖w‖ ≤ 1) (h1 : w ≠ -1) :
    (toAnalog f w).re ≤ 0 := by
  have h2 : Complex.normSq w ≤ 1 := by
    rw [Complex.normSq_eq_norm_sq]
    nlinarith [norm_nonneg w]
  rw [toAnalog_re]
  exact div_nonpos_of_nonpos_of_nonneg (mul_nonpos_of_nonneg_of_nonpos hf.le (by linarith))
    (normSq_add_one_pos h1).le

theorem toDigital_inside (f : ℝ) (hf : 0 < f) (s : ℂ) (h : s.re < 0) : ‖toDigital f s‖ < 1 := by
  have h2 : (f : ℂ) - s ≠ 0 := by
    intro h0
    have := congrArg Complex.re h0
    simp at this
    linarith
  unfold toDigital
  rw [norm_div, div_lt_one (norm_pos_iff.mpr h2)]
  refine lt_of_pow_lt_pow_left₀ 2 (norm_nonneg _) ?_
  rw [← Complex.normSq_eq_norm_sq, ← Complex.normSq_eq_norm_sq]
  simp only [Complex.normSq_apply, Complex.add_re, Complex.add_im, Complex.sub_re, Complex.sub_im,
    Complex.ofReal_re, Complex.ofReal_im]
  nlinarith

theorem two_cast (n : ℕ) : (2 * n : ℂ) = ((2 * n : ℝ) : ℂ) := by push_cast; rfl

theorem effZeros_mem (F : Zpk) (w : ℂ) (hw : w ∈ effZeros F) : w ∈ F.z ∨ w = 0 := by
  unfold effZeros at hw
  simp only at hw
  split_ifs at hw
  · rcases List.mem_append.mp hw with h | h
    · exact Or.inl (List.mem_filter.mp h).1
    · exact Or.inr (List.mem_replicate.mp h).2
  · exact Or.inl (List.mem_filter.mp hw).1

/-- A filter is never refused, and a stable filter without zeros outside the unit circle has a
finite result. -/
theorem C115_defined (F : Zpk) (fs fs' : ℕ) :
    (∀ e, resampleFilter F fs fs' ≠ .error e) ∧
    ((∀ w ∈ F.p, ‖w‖ < 1) → (∀ w ∈ F.z, ‖w‖ ≤ 1) → 0 < fs → 0 < fs' →
      ∃ G, resampleFilter F fs fs' = .ok (some G)) := by
  refine ⟨fun e => ?_, fun hp hz hfs hfs' => ?_⟩
  · by_cases h1 : (-1 : ℂ) ∈ F.p
    · unfold resampleFilter
      simp [h1]
    · rw [resample_eq F fs fs' h1]
      split_ifs <;> simp
  · have h1 : (-1 : ℂ) ∉ F.p := fun h => by have := hp _ h; simp at this
    have hf : (0 : ℝ) < 2 * fs := by positivity
    have hf' : (0 : ℝ) < 2 * fs' := by positivity
    rw [resample_eq F fs fs' h1, if_neg]
    · exact ⟨_, rfl⟩
    · rintro (h | h)
      · rw [analogZeros_eq] at h
        obtain ⟨w, hw, he⟩ := List.mem_map.mp h
        have hle : ‖w‖ ≤ 1 := by
          rcases effZeros_mem F w hw with h | h
          · exact hz w h
          · rw [h]; simp
        have := toAnalog_left' _ hf w hle (effZeros_ne F w hw)
        rw [← two_cast, he, two_cast, Complex.ofReal_re] at this
        linarith
      · rw [analogPoles_eq] at h
        obtain ⟨w, hw, he⟩ := List.mem_map.mp h
        have hle : ‖w‖ < 1 := by
          rcases effPoles_mem F w hw with h | h
          · exact hp w h
          · rw [h]; simp
        have := toAnalog_left _ hf w hle
        rw [← two_cast, he, two_cast, Complex.ofReal_re] at this
        linarith

theorem not_pole {F G : Zpk} {fs fs' : ℕ} (h : resampleFilter F fs fs' = .ok (some G)) :
    (-1 : ℂ) ∉ F.p := by
  intro hp
  unfold resampleFilter at h
  simp only [hp, if_true] at h
  cases h

theorem resample_parts {F G : Zpk} {fs fs' : ℕ} (h : resampleFilter F fs fs' = .ok (some G)) :
    (2 * fs' : ℂ) ∉ analogZeros F (2 * fs) ∧ (2 * fs' : ℂ) ∉ analogPoles F (2 * fs) ∧
    G.z = (analogZeros F (2 * fs)).map (toDigital (2 * fs')) ++
            List.replicate ((effPoles F).length - (effZeros F).length) (-1) ∧
    G.p = (analogPoles F (2 * fs)).map (toDigital (2 * fs')) := by
  rw [resample_eq F fs fs' (not_pole h)] at h
  by_cases hin : (2 * fs' : ℂ) ∈ analogZeros F (2 * fs) ∨ (2 * fs' : ℂ) ∈ analogPoles F (2 * fs)
  · rw [if_pos hin] at h; cases h
  rw [if_neg hin] at h
  have h := (Option.some.inj (Except.ok.inj h)).symm
  subst h
  push Not at hin
  exact ⟨hin.1, hin.2, rfl, rfl⟩

/-- **C115 (shape).** The result has as many zeros as poles; a real filter stays real. -/
theorem C115_shape (F G : Zpk) (fs fs' : ℕ) (h : resampleFilter F fs fs' = .ok (some G)) :
    G.z.length = G.p.length ∧ (F.z.length ≤ F.p.length → G.p.length = F.p.length) ∧
    (F.Real → G.Real) := by
  obtain ⟨_, _, hz, hp⟩ := resample_parts h
  have hle := effLength_le F
  rw [analogZeros_eq] at hz
  rw [analogPoles_eq] at hp
  refine ⟨?_, fun hl => ?_, fun hF => ⟨?_, ?_⟩⟩
  · rw [hz, hp]
    simp only [List.length_append, List.length_map, List.length_replicate]
    omega
  · rw [hp]
    simp only [List.length_map]
    unfold effPoles
    simp only
    rw [if_neg (by omega)]
  · rw [hz]
    refine Sym.append (((effZeros_sym F hF.1).map _ fun w => ?_).map _ fun w => ?_)
      (by simpa using Sym.replicate _ (-1))
    · rw [two_cast]; exact toAnalog_conj _ w
    · rw [two_cast]; exact toDigital_conj _ w
  · rw [hp]
    refine ((effPoles_sym F hF.2).map _ fun w => ?_).map _ fun w => ?_
    · rw [two_cast]; exact toAnalog_conj _ w
    · rw [two_cast]; exact toDigital_conj _ w

/-- **C115 (stability).** A stable filter stays stable. -/
theorem C115_stable (F G : Zpk) (fs fs' : ℕ) (hfs : 0 < fs) (hfs' : 0 < fs')
    (h : resampleFilter F fs fs' = .ok (some G)) (hp : ∀ w ∈ F.p, ‖w‖ < 1) :
    ∀ w ∈ G.p, ‖w‖ < 1 := by
  obtain ⟨_, _, _, hG⟩ := resample_parts h
  rw [hG, analogPoles_eq]
  intro v hv
  obtain ⟨s, hs, rfl⟩ := List.mem_map.mp hv
  obtain ⟨w, hw, rfl⟩ := List.mem_map.mp hs
  have hle : ‖w‖ < 1 := by
    rcases effPoles_mem F w hw with h | h
    · exact hp w h
    · rw [h]; simp
  rw [two_cast, two_cast]
  exact toDigital_inside _ (by positivity) _ (toAnalog_left _ (by positivity) w hle)

/-- Zeros inside the unit circle or at -1 stay there. -/
theorem C115_minimum_phase (F G : Zpk) (fs fs' : ℕ) (hfs : 0 < fs) (hfs' : 0 < fs')
    (h : resampleFilter F fs fs' = .ok (some G)) (hp : ∀ w ∈ F.z, ‖w‖ < 1 ∨ w = -1) :
    ∀ w ∈ G.z, ‖w‖ < 1 ∨ w = -1 := by
  obtain ⟨_, _, hG, _⟩ := resample_parts h
  rw [hG, analogZeros_eq]
  intro v hv
  rcases List.mem_append.mp hv with hv | hv
  · obtain ⟨s, hs, rfl⟩ := List.mem_map.mp hv
    obtain ⟨w, hw, rfl⟩ := List.mem_map.mp hs
    have hle : ‖w‖ < 1 := by
      rcases effZeros_mem F w hw with h | h
      · exact (hp w h).resolve_right (effZeros_ne F w hw)
      · rw [h]; simp
    left
    rw [two_cast, two_cast]
    exact toDigital_inside _ (by positivity) _ (toAnalog_left _ (by positivity) w hle)
  · right
    exact (List.mem_replicate.mp hv).2

theorem eff_response (F : Zpk) (z : ℂ) (h0 : z ≠ 0) (h1 : z ≠ -1) :
    ((effZeros F).map fun w => z - w).prod *
        (z + 1) ^ ((effPoles F).length - (effZeros F).length) /
      ((effPoles F).map fun w => z - w).prod =
    z ^ ((F.p.length : ℤ) - F.z.length) * (F.z.map fun w => z - w).prod /
      (F.p.map fun w => z - w).prod * (z / (z + 1)) ^ lost F := by
  have hz := add_one_ne h1
  have hc := filter_length F.z
  rw [← filter_prod F.z z]
  set Z := (F.z.filter fun w => decide (w ≠ -1)) with hZ
  set M := F.z.count (-1) with hM
  have hrep : ∀ n, ((List.replicate n (0 : ℂ)).map fun w => z - w).prod = z ^ n := by
    intro n; simp
  unfold effZeros effPoles lost
  simp only [← hZ, ← hM]
  rcases lt_trichotomy F.z.length F.p.length with h | h | h
  · rw [if_pos (by omega), if_neg (by omega), if_neg (by omega), if_pos h]
    simp only [List.map_append, List.prod_append, hrep, List.length_append, List.length_replicate]
    rw [show F.p.length - (Z.length + (F.p.length - Z.length)) = 0 by omega,
      show ((F.p.length : ℤ) - F.z.length) = ((F.p.length - F.z.length : ℕ) : ℤ) by omega,
      zpow_natCast, show F.p.length - Z.length = F.p.length - F.z.length + M by omega, pow_add, div_pow]
    field_simp
  · rw [if_neg (by omega), if_neg (by omega), if_pos h]
    rw [show ((F.p.length : ℤ) - F.z.length) = 0 by omega, zpow_zero, pow_zero, mul_one, one_mul,
      show F.p.length - Z.length = M by omega]
  · rw [if_neg (by omega), if_pos (by omega), if_neg (by omega), if_neg (by omega)]
    simp only [List.map_append, List.prod_append, hrep, List.length_append, List.length_replicate]
    rw [show ((F.p.length : ℤ) - F.z.length) = -((F.z.length - F.p.length : ℕ) : ℤ) by omega,
      zpow_neg, zpow_natCast, div_pow]
    by_cases hm : M ≤ F.z.length - F.p.length
    · rw [min_eq_left hm, show F.p.length + (Z.length - F.p.length) - Z.length = 0 by omega,
        show F.z.length - F.p.length = Z.length - F.p.length + M by omega, pow_add]
      field_simp
    · rw [min_eq_right (by omega), show Z.length - F.p.length = 0 by omega,
        show F.p.length + 0 - Z.length = M - (F.z.length - F.p.length) by omega]
      have : (z + 1) ^ M = (z + 1) ^ (M - (F.z.length - F.p.length)) *
          (z + 1) ^ (F.z.length - F.p.length) := by rw [← pow_add]; congr 1; omega
      rw [this]
      field_simp

/-- **C115 (response).** At points of the same analog frequency, a resampled filter responds as
the given filter, except for the zeros at -1 that got lost (replaced by zeros at the origin). -/
theorem C115_response (F : Zpk) (hF : F.Real) (fs fs' : ℕ) (hfs : 0 < fs)
    (G : Zpk) (h : resampleFilter F fs fs' = .ok (some G)) (z z' : ℂ) (h0 : z ≠ 0)
    (hzz : SameAnalog fs fs' z z') :
    G.response z' = F.response z * (z / (z + 1)) ^ lost F := by
  obtain ⟨h1, h1', he⟩ := hzz
  have hz := add_one_ne h1
  have hz' := add_one_ne h1'
  have hp : (-1 : ℂ) ∉ F.p := not_pole h
  rw [resample_eq F fs fs' hp] at h
  have hf0 : (2 * fs : ℂ) ≠ 0 := by
    have : (fs : ℂ) ≠ 0 := by exact_mod_cast hfs.ne'
    exact mul_ne_zero two_ne_zero this
  have hsame : toAnalog (2 * fs' : ℂ) z' = toAnalog (2 * fs : ℂ) z := by
    unfold toAnalog
    rw [div_eq_div_iff hz' hz]
    linear_combination (-2) * he
  have hreal : ∀ n : ℕ, (2 * n : ℂ) = ((2 * n : ℝ) : ℂ) := fun n => by push_cast; rfl
  have hsz : Sym (analogZeros F (2 * fs)) := by
    rw [analogZeros_eq, hreal]
    exact (effZeros_sym F hF.1).map _ (toAnalog_conj _)
  have hsp : Sym (analogPoles F (2 * fs)) := by
    rw [analogPoles_eq, hreal]
    exact (effPoles_sym F hF.2).map _ (toAnalog_conj _)
  have hquot : ∀ n : ℕ, ∃ r : ℝ, ((analogZeros F (2 * fs)).map fun w => (2 * n : ℂ) - w).prod /
      ((analogPoles F (2 * fs)).map fun w => (2 * n : ℂ) - w).prod = r := by
    intro n
    obtain ⟨a, ha⟩ := hsz.prod_real (2 * n)
    obtain ⟨b, hb⟩ := hsp.prod_real (2 * n)
    refine ⟨a / b, ?_⟩
    rw [hreal, ha, hb]
    push_cast
    rfl
  by_cases hin : (2 * fs' : ℂ) ∈ analogZeros F (2 * fs) ∨ (2 * fs' : ℂ) ∈ analogPoles F (2 * fs)
  · rw [if_pos hin] at h; cases h
  rw [if_neg hin] at h
  have h := (Option.some.inj (Except.ok.inj h)).symm
  subst h
  push Not at hin
  have hnz : (2 * fs : ℂ) ∉ analogZeros F (2 * fs) := by
    rw [analogZeros_eq]
    intro hm
    obtain ⟨w, hw, hw2⟩ := List.mem_map.mp hm
    have hw1 := effZeros_ne F w hw
    have := sub_toAnalog_self (2 * fs) w hw1
    rw [hw2, sub_self] at this
    exact div_ne_zero (mul_ne_zero two_ne_zero hf0) (add_one_ne hw1) this.symm
  have hnp : (2 * fs : ℂ) ∉ analogPoles F (2 * fs) := by
    rw [analogPoles_eq]
    intro hm
    obtain ⟨w, hw, hw2⟩ := List.mem_map.mp hm
    have hw1 := effPoles_ne F hp w hw
    have := sub_toAnalog_self (2 * fs) w hw1
    rw [hw2, sub_self] at this
    exact div_ne_zero (mul_ne_zero two_ne_zero hf0) (add_one_ne hw1) this.symm
  have hle := effLength_le F
  have hlz : (analogZeros F (2 * fs)).length = (effZeros F).length := by rw [analogZeros_eq]; simp
  have hlp : (analogPoles F (2 * fs)).length = (effPoles F).length := by rw [analogPoles_eq]; simp
  have k1 := prod_toDigital (2 * fs') z' h1' _ hin.1
  have k2 := prod_toDigital (2 * fs') z' h1' _ hin.2
  have k3 := prod_toAnalog (2 * fs) z h1 (effZeros F) (effZeros_ne F)
  have k4 := prod_toAnalog (2 * fs) z h1 (effPoles F) (effPoles_ne F hp)
  rw [← analogZeros_eq] at k3
  rw [← analogPoles_eq] at k4
  rw [hsame, hlz] at k1
  rw [hsame, hlp] at k2
  have n1 := prod_sub_ne _ _ hin.1
  have n2 := prod_sub_ne _ _ hin.2
  have n3 := prod_sub_ne _ _ hnz
  have n4 := prod_sub_ne _ _ hnp
  have hG : F.response z * (z / (z + 1)) ^ lost F = F.k * (((effZeros F).map fun w => z - w).prod *
        (z + 1) ^ ((effPoles F).length - (effZeros F).length) /
      ((effPoles F).map fun w => z - w).prod) := by
    rw [eff_response F z h0 h1]
    unfold Zpk.response
    ring
  rw [hG]
  unfold Zpk.response
  simp only [List.length_append, List.length_map, List.length_replicate, List.map_append,
    List.prod_append, List.map_replicate, List.prod_replicate, sub_neg_eq_add]
  obtain ⟨r1, hr1⟩ := hquot fs
  obtain ⟨r2, hr2⟩ := hquot fs'
  have hlen : (((analogPoles F (2 * fs)).length : ℤ) -
      ((analogZeros F (2 * fs)).length + ((effPoles F).length - (effZeros F).length : ℕ) : ℕ)) = 0 := by
    rw [hlz, hlp]; omega
  rw [hlen, zpow_zero, mul_one, hr1, hr2, Complex.ofReal_re, Complex.ofReal_re]
  push_cast
  rw [← hr1, ← hr2]
  have hsplit : (z' + 1) ^ (effPoles F).length = (z' + 1) ^ (effZeros F).length *
      (z' + 1) ^ ((effPoles F).length - (effZeros F).length) := by rw [← pow_add]; congr 1; omega
  have hsplit2 : (z + 1) ^ (effPoles F).length = (z + 1) ^ (effZeros F).length *
      (z + 1) ^ ((effPoles F).length - (effZeros F).length) := by rw [← pow_add]; congr 1; omega
  rw [hsplit] at k2
  rw [hsplit2] at k4
  have m1 : (z' + 1) ^ (effZeros F).length ≠ 0 := pow_ne_zero _ hz'
  have m2 : (z' + 1) ^ ((effPoles F).length - (effZeros F).length) ≠ 0 := pow_ne_zero _ hz'
  have m3 : (z + 1) ^ (effZeros F).length ≠ 0 := pow_ne_zero _ hz
  have m4 : (z + 1) ^ ((effPoles F).length - (effZeros F).length) ≠ 0 := pow_ne_zero _ hz
  generalize (z' + 1) ^ (effZeros F).length = Y at *
  generalize (z' + 1) ^ ((effPoles F).length - (effZeros F).length) = Y' at *
  generalize (z + 1) ^ (effZeros F).length = X at *
  generalize (z + 1) ^ ((effPoles F).length - (effZeros F).length) = X' at *
  generalize ((analogZeros F (2 * fs)).map fun w => (2 * fs' : ℂ) - w).prod = a at *
  generalize ((analogPoles F (2 * fs)).map fun w => (2 * fs' : ℂ) - w).prod = b at *
  generalize ((analogZeros F (2 * fs)).map fun w => (2 * fs : ℂ) - w).prod = c at *
  generalize ((analogPoles F (2 * fs)).map fun w => (2 * fs : ℂ) - w).prod = d at *
  generalize (((analogZeros F (2 * fs)).map (toDigital (2 * fs'))).map fun w => z' - w).prod = e at *
  generalize (((analogPoles F (2 * fs)).map (toDigital (2 * fs'))).map fun w => z' - w).prod = g at *
  generalize ((analogZeros F (2 * fs)).map fun s => toAnalog (2 * fs) z - s).prod = i at *
  generalize ((analogPoles F (2 * fs)).map fun s => toAnalog (2 * fs) z - s).prod = j at *
  generalize ((effZeros F).map fun w => z - w).prod = u at *
  generalize ((effPoles F).map fun w => z - w).prod = v at *
  have e1 : e = Y * i / a := by rw [eq_div_iff n1, k1]
  have e2 : g = Y * Y' * j / b := by rw [eq_div_iff n2, k2]
  have e3 : u = i * X / c := by rw [eq_div_iff n3, k3, mul_comm]
  have e4 : v = j * (X * X') / d := by rw [eq_div_iff n4, k4, mul_comm]
  rw [e1, e2, e3, e4]
  by_cases hj : j = 0
  · rw [hj]; simp
  · field_simp

/-- **C115 (nothing lost).** Filters with as many zeros as poles, and filters without a zero at -1,
keep their response. -/
theorem C115_response_partial (F : Zpk) (hF : F.Real) (fs fs' : ℕ) (hfs : 0 < fs) (G : Zpk)
    (h : resampleFilter F fs fs' = .ok (some G))
    (hl : F.z.length = F.p.length ∨ (-1 : ℂ) ∉ F.z) (z z' : ℂ) (h0 : z ≠ 0)
    (hzz : SameAnalog fs fs' z z') : G.response z' = F.response z := by
  have h1 : lost F = 0 := by
    unfold lost
    rcases hl with hl | hl
    · rw [if_pos hl]
    · rw [List.count_eq_zero_of_not_mem hl]
      split_ifs <;> simp
  rw [C115_response F hF fs fs' hfs G h z z' h0 hzz, h1, pow_zero, mul_one]

theorem exp_ratio (θ : ℝ) (h : Real.cos (θ / 2) ≠ 0) :
    Complex.exp (θ * Complex.I) ≠ -1 ∧
    (Complex.exp (θ * Complex.I) - 1) * Real.cos (θ / 2) =
      (Complex.exp (θ * Complex.I) + 1) * (Complex.I * Real.sin (θ / 2)) := by
  have hcos : Real.cos θ = 2 * Real.cos (θ / 2) ^ 2 - 1 := by
    rw [← Real.cos_two_mul]; congr 1; ring
  have hsin : Real.sin θ = 2 * Real.sin (θ / 2) * Real.cos (θ / 2) := by
    rw [← Real.sin_two_mul]; congr 1; ring
  have hq := Real.sin_sq_add_cos_sq (θ / 2)
  have he : Complex.exp (θ * Complex.I) = Real.cos θ + Real.sin θ * Complex.I := by
    rw [Complex.exp_mul_I, Complex.ofReal_cos, Complex.ofReal_sin]
  generalize Real.cos (θ / 2) = c at *
  generalize Real.sin (θ / 2) = s at *
  constructor
  · intro h1
    rw [he] at h1
    have := congrArg Complex.re h1
    simp [-Complex.ofReal_cos, -Complex.ofReal_sin] at this
    rw [hcos] at this
    have : c ^ 2 = 0 := by linarith
    exact h (pow_eq_zero_iff (two_ne_zero) |>.mp this)
  · rw [he, hcos, hsin]
    apply Complex.ext
    · simp [-Complex.ofReal_cos, -Complex.ofReal_sin, pow_two]
      linear_combination (2 * c) * hq
    · simp [-Complex.ofReal_cos, -Complex.ofReal_sin, pow_two]
      nlinarith

/-- **C115 (frequencies).** The frequency response is kept up to a warping of the frequency axis:
the new filter responds at `φ'` as the given one at `φ` if `fs tan(π φ / fs) = fs' tan(π φ' / fs')`. -/
theorem C115_frequency_response (F : Zpk) (hF : F.Real) (fs fs' : ℕ) (hfs : 0 < fs) (G : Zpk)
    (h : resampleFilter F fs fs' = .ok (some G))
    (hl : F.z.length = F.p.length ∨ (-1 : ℂ) ∉ F.z) (φ φ' : ℝ)
    (hφ : |φ| < fs / 2) (hφ' : |φ'| < fs' / 2)
    (hw : fs * Real.tan (Real.pi * φ / fs) = fs' * Real.tan (Real.pi * φ' / fs')) :
    G.response (Complex.exp ((2 * Real.pi * φ' / fs' : ℝ) * Complex.I)) =
      F.response (Complex.exp ((2 * Real.pi * φ / fs : ℝ) * Complex.I)) := by
  have hcos : ∀ (n : ℕ) (x : ℝ), |x| < n / 2 → 0 < Real.cos (Real.pi * x / n) := by
    intro n x hx
    have hn : (0 : ℝ) < n := by have := abs_nonneg x; linarith
    obtain ⟨h1, h2⟩ := abs_lt.mp hx
    have hpi := Real.pi_pos
    refine Real.cos_pos_of_mem_Ioo ⟨?_, ?_⟩
    · rw [lt_div_iff₀ hn]; nlinarith
    · rw [div_lt_iff₀ hn]; nlinarith
  have c1 := hcos fs φ hφ
  have c2 := hcos fs' φ' hφ'
  have hh1 : 2 * Real.pi * φ / fs / 2 = Real.pi * φ / fs := by ring
  have hh2 : 2 * Real.pi * φ' / fs' / 2 = Real.pi * φ' / fs' := by ring
  obtain ⟨a1, a2⟩ := exp_ratio (2 * Real.pi * φ / fs) (by rw [hh1]; exact c1.ne')
  obtain ⟨b1, b2⟩ := exp_ratio (2 * Real.pi * φ' / fs') (by rw [hh2]; exact c2.ne')
  rw [hh1] at a2
  rw [hh2] at b2
  refine C115_response_partial F hF fs fs' hfs G h hl _ _ (Complex.exp_ne_zero _) ⟨a1, b1, ?_⟩
  rw [Real.tan_eq_sin_div_cos, Real.tan_eq_sin_div_cos] at hw
  have hw2 : (fs : ℂ) * Real.sin (Real.pi * φ / fs) * Real.cos (Real.pi * φ' / fs') =
      fs' * Real.sin (Real.pi * φ' / fs') * Real.cos (Real.pi * φ / fs) := by
    have : fs * Real.sin (Real.pi * φ / fs) * Real.cos (Real.pi * φ' / fs') =
      fs' * Real.sin (Real.pi * φ' / fs') * Real.cos (Real.pi * φ / fs) := by
      field_simp at hw
      linarith
    exact_mod_cast this
  have d1 : (Real.cos (Real.pi * φ / fs) : ℂ) ≠ 0 := by exact_mod_cast c1.ne'
  have d2 : (Real.cos (Real.pi * φ' / fs') : ℂ) ≠ 0 := by exact_mod_cast c2.ne'
  generalize Complex.exp ((2 * Real.pi * φ / fs : ℝ) * Complex.I) = z at *
  generalize Complex.exp ((2 * Real.pi * φ' / fs' : ℝ) * Complex.I) = z' at *
  generalize (Real.cos (Real.pi * φ / fs) : ℂ) = c at *
  generalize (Real.cos (Real.pi * φ' / fs') : ℂ) = c' at *
  generalize (Real.sin (Real.pi * φ / fs) : ℂ) = s at *
  generalize (Real.sin (Real.pi * φ' / fs') : ℂ) = s' at *
  have key : (c * c') * ((fs : ℂ) * (z - 1) * (z' + 1)) = (c * c') * (fs' * (z' - 1) * (z + 1)) := by
    linear_combination (fs * (z' + 1) * c') * a2 - (fs' * (z + 1) * c) * b2 +
      ((z + 1) * (z' + 1) * Complex.I) * hw2
  exact mul_left_cancel₀ (mul_ne_zero d1 d2) key

/-- **C115 (same rate).** Resampling to the same rate keeps the response. -/
theorem C115_same_rate (F : Zpk) (hF : F.Real) (fs : ℕ) (hfs : 0 < fs) (G : Zpk)
    (h : resampleFilter F fs fs = .ok (some G))
    (hl : F.z.length = F.p.length ∨ (-1 : ℂ) ∉ F.z) (z : ℂ) (h0 : z ≠ 0) (h1 : z ≠ -1) :
    G.response z = F.response z :=
  C115_response_partial F hF fs fs hfs G h hl z z h0 ⟨h1, h1, by ring⟩

theorem toAnalog_toDigital (f s : ℂ) (hf : f ≠ 0) (h : f ≠ s) : toAnalog f (toDigital f s) = s := by
  have h1 := sub_ne_zero.mpr h
  unfold toAnalog toDigital
  have h2 : (f + s) / (f - s) + 1 = 2 * f / (f - s) := by field_simp; ring
  have h3 : (f + s) / (f - s) - 1 = 2 * s / (f - s) := by field_simp; ring
  rw [h2, h3]
  field_simp

theorem toDigital_ne (f s : ℂ) (hf : f ≠ 0) (h : f ≠ s) : toDigital f s ≠ -1 := by
  have h1 := sub_ne_zero.mpr h
  unfold toDigital
  rw [Ne, div_eq_iff h1]
  intro h2
  exact hf (by linear_combination h2 / 2)

theorem toAnalog_ne (f w : ℂ) (hf : f ≠ 0) (hw : w ≠ -1) : toAnalog f w ≠ f := by
  intro h
  have := sub_toAnalog_self f w hw
  rw [h, sub_self] at this
  exact div_ne_zero (mul_ne_zero two_ne_zero hf) (add_one_ne hw) this.symm

/-- **C115 (round trip).** The new rate and back yields a filter of the same response. -/
theorem C115_round_trip (F : Zpk) (hF : F.Real) (fs fs' : ℕ) (hfs : 0 < fs) (hfs' : 0 < fs') (G : Zpk)
    (h : resampleFilter F fs fs' = .ok (some G))
    (hl : F.z.length = F.p.length ∨ (-1 : ℂ) ∉ F.z) :
    ∃ E, resampleFilter G fs' fs = .ok (some E) ∧
      ∀ z z' : ℂ, z ≠ 0 → z' ≠ 0 → SameAnalog fs fs' z z' → E.response z = F.response z := by
  obtain ⟨s1, _, s3⟩ := C115_shape F G fs fs' h
  obtain ⟨hz, hp, gz, gp⟩ := resample_parts h
  have hf0 : (2 * fs : ℂ) ≠ 0 := mul_ne_zero two_ne_zero (by exact_mod_cast hfs.ne')
  have hf0' : (2 * fs' : ℂ) ≠ 0 := mul_ne_zero two_ne_zero (by exact_mod_cast hfs'.ne')
  have hnp : (-1 : ℂ) ∉ G.p := by
    rw [gp]
    intro hm
    obtain ⟨s, hs, h1⟩ := List.mem_map.mp hm
    exact toDigital_ne _ s hf0' (fun h0 => hp (h0 ▸ hs)) h1
  have hE : ∃ E, resampleFilter G fs' fs = .ok (some E) := by
    rw [resample_eq G fs' fs hnp, if_neg]
    · exact ⟨_, rfl⟩
    · rintro (hm | hm)
      · rw [analogZeros_eq] at hm
        obtain ⟨w, hw, h1⟩ := List.mem_map.mp hm
        have hw1 := effZeros_ne G w hw
        unfold effZeros at hw
        simp only at hw
        rw [if_neg (by omega)] at hw
        have hw := (List.mem_filter.mp hw).1
        rw [gz] at hw
        rcases List.mem_append.mp hw with hw | hw
        · obtain ⟨s, hs, rfl⟩ := List.mem_map.mp hw
          rw [toAnalog_toDigital _ s hf0' (fun h0 => hz (h0 ▸ hs))] at h1
          rw [analogZeros_eq] at hs
          obtain ⟨v, hv, rfl⟩ := List.mem_map.mp hs
          exact toAnalog_ne _ v hf0 (effZeros_ne F v hv) h1
        · exact hw1 (List.mem_replicate.mp hw).2
      · rw [analogPoles_eq] at hm
        obtain ⟨w, hw, h1⟩ := List.mem_map.mp hm
        unfold effPoles at hw
        simp only at hw
        rw [if_neg (by omega), gp] at hw
        obtain ⟨s, hs, rfl⟩ := List.mem_map.mp hw
        rw [toAnalog_toDigital _ s hf0' (fun h0 => hp (h0 ▸ hs))] at h1
        rw [analogPoles_eq] at hs
        obtain ⟨v, hv, rfl⟩ := List.mem_map.mp hs
        exact toAnalog_ne _ v hf0 (effPoles_ne F (not_pole h) v hv) h1
  obtain ⟨E, hE⟩ := hE
  refine ⟨E, hE, fun z z' h0 h0' hzz => ?_⟩
  rw [← C115_response_partial F hF fs fs' hfs G h hl z z' h0 hzz]
  exact C115_response_partial G (s3 hF) fs' fs hfs' E hE (Or.inl s1) z' z h0'
    ⟨hzz.2.1, hzz.1, hzz.2.2.symm⟩

/-- **C115 (zeros lost), negation.** The gain at 0 Hz is halved for every lost zero. -/
theorem C115_lost_dc (F : Zpk) (hF : F.Real) (fs fs' : ℕ) (hfs : 0 < fs) (G : Zpk)
    (h : resampleFilter F fs fs' = .ok (some G)) :
    G.response 1 = F.response 1 / 2 ^ lost F := by
  rw [C115_response F hF fs fs' hfs G h 1 1 one_ne_zero ⟨by norm_num, by norm_num, by ring⟩,
    show (1 : ℂ) + 1 = 2 by norm_num, div_pow, one_pow]
  ring

/-- The FIR filter `1 + z⁻¹`. -/
def sum2 : Zpk := ⟨[-1], [], 1⟩

/-- The FIR filter `1 + z⁻¹` is turned into a wire at any rate, also at its own. -/
theorem C115_fir_becomes_wire (fs fs' : ℕ) :
    resampleFilter sum2 fs fs' = .ok (some ⟨[], [], 1⟩) ∧
    sum2.response 1 = 2 ∧ (⟨[], [], 1⟩ : Zpk).response 1 = 1 := by
  refine ⟨?_, ?_, ?_⟩
  · simp [resampleFilter, analogZeros, analogPoles, bilinearZpk, sum2]
  · simp [Zpk.response, sum2]
    norm_num
  · simp [Zpk.response]

/-- A pole of order two and one zero at -1. -/
noncomputable def lowpass : Zpk := ⟨[-1], [1 / 2, 1 / 2], 1⟩

/-- Also an IIR filter with fewer zeros than poles loses its zero: the response at 0 Hz is halved. -/
theorem C115_iir_zero_lost (fs fs' : ℕ) (hfs : 0 < fs) (hfs' : 0 < fs') :
    ∃ G, resampleFilter lowpass fs fs' = .ok (some G) ∧ lowpass.response 1 = 8 ∧
      G.response 1 = 4 := by
  have hF : lowpass.Real := by
    constructor <;> simp [lowpass, map_ofNat]
  obtain ⟨G, hG⟩ := (C115_defined lowpass fs fs').2
    (by intro w hw; simp only [lowpass, List.mem_cons, List.not_mem_nil, or_false, or_self] at hw
        rw [hw]; norm_num)
    (by intro w hw; simp only [lowpass, List.mem_cons, List.not_mem_nil, or_false] at hw
        rw [hw]; norm_num) hfs hfs'
  have h1 : lowpass.response 1 = 8 := by
    simp [Zpk.response, lowpass]
    norm_num
  refine ⟨G, hG, h1, ?_⟩
  rw [C115_lost_dc lowpass hF fs fs' hfs G hG, h1]
  have : lost lowpass = 1 := by
    simp [lost, lowpass]
  rw [this]
  norm_num

example : ∃ F : Zpk, F.Real ∧ F.z.length = F.p.length ∧ (∀ w ∈ F.p, ‖w‖ < 1) ∧
    (∀ w ∈ F.z, ‖w‖ ≤ 1) ∧ F.z ≠ [] := by
  refine ⟨⟨[-1], [1 / 2], 1⟩, ?_, rfl, ?_, ?_, by simp⟩
  · constructor <;> simp [map_ofNat]
  · intro w hw
    simp only [List.mem_cons, List.not_mem_nil, or_false] at hw
    rw [hw]; norm_num
  · intro w hw
    simp only [List.mem_cons, List.not_mem_nil, or_false] at hw
    rw [hw]; norm_num

example : SameAnalog 48000 96000 (3 : ℂ) (5 / 3) := by
  refine ⟨by norm_num, by norm_num, by norm_num⟩

end Verif.ResampleFilter
