import Verif.Model.OctaveBank
import Verif.Props.C105
import Mathlib.Analysis.SpecialFunctions.Trigonometric.Arctan

/-!
# C131: the bank of fractional octave filters
-/

namespace Verif.OctaveBank

open FrequencyGrids

theorem ratio_pos (b : ℕ) (x : ℝ) : 0 < octaveRatio ^ (x / (b : ℝ)) := Real.rpow_pos_of_pos octaveRatio_pos _

/-- When the call is refused: no sampling rate, not two limits, or a limit from half the sampling
rate on. -/
theorem C131_refused (range : List ℝ) (b : ℕ) (fs : Option ℕ)
    (h : fs = none ∨ range.length ≠ 2 ∨ ∃ r, fs = some r ∧ ∃ f ∈ range, ((r / 2 : ℕ) : ℝ) ≤ f) :
    octaveBands range b fs = .error .assertionError := by
  unfold octaveBands
  cases fs with
  | none => rfl
  | some fs =>
    dsimp only
    split
    · rename_i x y
      rcases h with h | h | ⟨r, hr, f, hf, hl⟩
      · cases h
      · exact absurd rfl h
      · cases hr
        rw [if_pos]
        rw [not_lt]
        rcases List.mem_pair.mp hf with rfl | rfl
        · exact hl.trans (le_max_left _ _)
        · exact hl.trans (le_max_right _ _)
    · rfl

/-- The order of the two limits does not matter. -/
theorem C131_order (x y : ℝ) (b : ℕ) (fs : Option ℕ) :
    octaveBands [x, y] b fs = octaveBands [y, x] b fs := by
  unfold octaveBands
  dsimp only
  rw [max_comm x y, min_comm x y]

theorem bank_ok {range : List ℝ} {b fs : ℕ} {B : Bank} (h : octaveBands range b (some fs) = .ok B) :
    ∃ x y nom exact, range = [x, y] ∧ max x y < ((fs / 2 : ℕ) : ℝ) ∧
      octaveFrequencies b [min x y, max x y] = .ok (nom, exact) ∧
      (∀ f ∈ exact, (design fs b f).Valid fs) ∧
      B = ⟨exact.map (design fs b), exact, exact.map (lowerEdge b), exact.map (upperEdge b)⟩ := by
  unfold octaveBands at h
  dsimp only at h
  split at h
  · rename_i x y
    split_ifs at h with h1
    cases ho : octaveFrequencies b [min x y, max x y] with
    | error e => rw [ho] at h; cases h
    | ok p =>
      obtain ⟨nom, exact⟩ := p
      rw [ho] at h
      dsimp only at h
      split_ifs at h with h2
      cases h
      exact ⟨x, y, nom, exact, rfl, h1, ho, h2, rfl⟩
  · cases h

/-- One filter for each centre frequency of the grid (C105), in the same order.  Its limits are half
a band below and above the centre.  It is a band-pass filter between these limits if the upper one
is at most `fs // 2`, else a high-pass filter from the lower limit. -/
theorem C131_bands (range : List ℝ) (b fs : ℕ) (B : Bank)
    (h : octaveBands range b (some fs) = .ok B) :
    (∃ x y nom, range = [x, y] ∧
      octaveFrequencies b [min x y, max x y] = .ok (nom, B.centres)) ∧
    B.filters.length = B.centres.length ∧ B.lower.length = B.centres.length ∧
    B.upper.length = B.centres.length ∧
    ∀ i (hi : i < B.centres.length),
      B.lower.getD i 0 = B.centres[i] * (10 ^ ((3 : ℝ) / 10)) ^ (-1 / 2 / (b : ℝ)) ∧
      B.upper.getD i 0 = B.centres[i] * (10 ^ ((3 : ℝ) / 10)) ^ (1 / 2 / (b : ℝ)) ∧
      (B.upper.getD i 0 ≤ ((fs / 2 : ℕ) : ℝ) →
        B.filters[i]? = some (.bandpass (B.lower.getD i 0) (B.upper.getD i 0))) ∧
      (((fs / 2 : ℕ) : ℝ) < B.upper.getD i 0 → B.filters[i]? = some (.highpass (B.lower.getD i 0))) := by
  obtain ⟨x, y, nom, exact, rfl, _, ho, _, rfl⟩ := bank_ok h
  refine ⟨⟨x, y, nom, rfl, ho⟩, by simp, by simp, by simp, fun i hi => ?_⟩
  dsimp only at hi ⊢
  have e1 : (exact.map (lowerEdge b)).getD i 0 = lowerEdge b exact[i] := by
    rw [List.getD_eq_getElem _ _ (by simpa using hi), List.getElem_map]
  have e2 : (exact.map (upperEdge b)).getD i 0 = upperEdge b exact[i] := by
    rw [List.getD_eq_getElem _ _ (by simpa using hi), List.getElem_map]
  rw [e1, e2]
  refine ⟨rfl, rfl, fun hu => ?_, fun hu => ?_⟩
  · rw [List.getElem?_map, List.getElem?_eq_getElem hi, Option.map_some]
    unfold design
    rw [if_neg (not_lt.mpr hu)]
  · rw [List.getElem?_map, List.getElem?_eq_getElem hi, Option.map_some]
    unfold design
    rw [if_pos hu]

/-- All frequencies handed to the design are above zero and below half the sampling rate. -/
theorem C131_valid (range : List ℝ) (b fs : ℕ) (B : Bank)
    (h : octaveBands range b (some fs) = .ok B) (d : Design) (hd : d ∈ B.filters) : d.Valid fs := by
  obtain ⟨x, y, nom, exact, rfl, _, ho, hv, rfl⟩ := bank_ok h
  obtain ⟨f, hf, rfl⟩ := List.mem_map.mp hd
  exact hv f hf

/-! ### The power of the bank -/

theorem warped_mono (fs : ℕ) {f g : ℝ} (h0 : 0 < f) (h : f < g) (hg : g < (fs : ℝ) / 2) :
    0 < warped fs f ∧ warped fs f < warped fs g := by
  have hfs : (0 : ℝ) < fs := by linarith
  have hp := Real.pi_pos
  have e1 : 0 < Real.pi * f / fs := by positivity
  have e2 : Real.pi * f / fs < Real.pi * g / fs := by
    rw [div_lt_div_iff_of_pos_right hfs]
    nlinarith
  have e3 : Real.pi * g / fs < Real.pi / 2 := by
    rw [div_lt_div_iff₀ hfs two_pos]
    nlinarith
  exact ⟨Real.tan_pos_of_pos_of_lt_pi_div_two e1 (by linarith),
    Real.tan_lt_tan_of_nonneg_of_lt_pi_div_two e1.le e3 e2⟩

/-- Every filter passes at most the full and more than no power. -/
theorem C131_power_bounds (fs order : ℕ) (f : ℝ) (d : Design) :
    0 < d.power fs order f ∧ d.power fs order f ≤ 1 := by
  have key : ∀ x : ℝ, 0 < 1 / (1 + x ^ (2 * order)) ∧ 1 / (1 + x ^ (2 * order)) ≤ 1 := by
    intro x
    have h : 0 ≤ x ^ (2 * order) := by
      rw [pow_mul]
      positivity
    exact ⟨by positivity, by rw [div_le_one (by positivity)]; linarith⟩
  cases d with
  | bandpass l u => exact key _
  | highpass l => exact key _

/-- Half the power at the limits of a band: the bands cross at -3 dB. -/
theorem C131_half_power (fs order : ℕ) (l u : ℝ) (hl : 0 < l) (hlu : l < u) (hu : u < (fs : ℝ) / 2) :
    (Design.bandpass l u).power fs order l = 1 / 2 ∧
    (Design.bandpass l u).power fs order u = 1 / 2 ∧
    (Design.highpass l).power fs order l = 1 / 2 := by
  obtain ⟨h1, h2⟩ := warped_mono fs hl hlu hu
  have h3 : 0 < warped fs u := h1.trans h2
  have h4 : warped fs u - warped fs l ≠ 0 := by linarith
  unfold Design.power
  dsimp only
  refine ⟨?_, ?_, ?_⟩
  · have : (warped fs l ^ 2 - warped fs l * warped fs u) / (warped fs l * (warped fs u - warped fs l)) = -1 := by
      rw [div_eq_iff (mul_ne_zero h1.ne' h4)]
      ring
    rw [this, pow_mul]
    norm_num
  · have : (warped fs u ^ 2 - warped fs l * warped fs u) / (warped fs u * (warped fs u - warped fs l)) = 1 := by
      rw [div_eq_iff (mul_ne_zero h3.ne' h4)]
      ring
    rw [this, one_pow]
    norm_num
  · rw [div_self h1.ne', one_pow]
    norm_num

/-- The high-pass filter passes more power at higher frequencies: more than half above its limit, less
below. -/
theorem C131_highpass (fs order : ℕ) (l f g : ℝ) (hl : 0 < l) (hf : 0 < f) (hfg : f < g)
    (hg : g < (fs : ℝ) / 2) (hlf : l < (fs : ℝ) / 2) (ho : 0 < order) :
    (Design.highpass l).power fs order f < (Design.highpass l).power fs order g ∧
    (f < l → (Design.highpass l).power fs order f < 1 / 2) ∧
    (l < f → 1 / 2 < (Design.highpass l).power fs order f) := by
  have key : ∀ a b : ℝ, 0 < a → a < b → b < (fs : ℝ) / 2 →
      (Design.highpass l).power fs order a < (Design.highpass l).power fs order b := by
    intro a b ha hab hb
    obtain ⟨h1, h2⟩ := warped_mono fs ha hab hb
    have h3 : 0 < warped fs l := by
      rcases lt_or_ge l b with h | h
      · exact (warped_mono fs hl h hb).1
      · exact (h1.trans h2).trans_le (by
          rcases h.eq_or_lt with h | h
          · rw [h]
          · exact (warped_mono fs (ha.trans hab) h hlf).2.le)
    unfold Design.power
    dsimp only
    have h4 : warped fs l / warped fs b < warped fs l / warped fs a := div_lt_div_of_pos_left h3 h1 h2
    have h5 := pow_lt_pow_left₀ h4 (by have := h1.trans h2; positivity) (by omega : 2 * order ≠ 0)
    have h6 : 0 < warped fs l / warped fs b := by have := h1.trans h2; positivity
    exact one_div_lt_one_div_of_lt (by positivity) (by linarith)
  have hhalf : (Design.highpass l).power fs order l = 1 / 2 :=
    (C131_half_power fs order l ((l + (fs : ℝ) / 2) / 2) hl (by linarith) (by linarith)).2.2
  refine ⟨key f g hf hfg hg, fun h => ?_, fun h => ?_⟩
  · rw [← hhalf]
    exact key f l hf h hlf
  · rw [← hhalf]
    exact key l f hl h (hfg.trans hg)

/-- A band-pass filter passes the full power at one frequency between its limits. -/
theorem full_power (fs order : ℕ) (l u : ℝ) (hl : 0 < l) (hlu : l < u) (hu : u < (fs : ℝ) / 2)
    (ho : 0 < order) : ∃ f, l < f ∧ f < u ∧ (Design.bandpass l u).power fs order f = 1 := by
  obtain ⟨h1, h2⟩ := warped_mono fs hl hlu hu
  have h3 : 0 < warped fs u := h1.trans h2
  have hfs : (0 : ℝ) < fs := by linarith
  have hp := Real.pi_pos
  set c := Real.sqrt (warped fs l * warped fs u) with hc
  have hc2 : c ^ 2 = warped fs l * warped fs u := Real.sq_sqrt (by positivity)
  have hc0 : 0 < c := Real.sqrt_pos.mpr (by positivity)
  have hcl : warped fs l < c := by nlinarith
  have hcu : c < warped fs u := by nlinarith
  have harg : ∀ g : ℝ, 0 < g → g < (fs : ℝ) / 2 → Real.arctan (warped fs g) = Real.pi * g / fs := by
    intro g hg0 hg
    unfold warped
    refine Real.arctan_tan ?_ ?_
    · have : 0 < Real.pi * g / fs := by positivity
      linarith
    · rw [div_lt_div_iff₀ hfs two_pos]
      nlinarith
  refine ⟨fs * Real.arctan c / Real.pi, ?_, ?_, ?_⟩
  · have := Real.arctan_strictMono hcl
    rw [harg l hl (hlu.trans hu), div_lt_iff₀ hfs] at this
    rw [lt_div_iff₀ hp]
    linarith
  · have := Real.arctan_strictMono hcu
    rw [harg u (hl.trans hlu) hu, lt_div_iff₀ hfs] at this
    rw [div_lt_iff₀ hp]
    linarith
  · have hw : warped fs (fs * Real.arctan c / Real.pi) = c := by
      unfold warped
      rw [show Real.pi * (fs * Real.arctan c / Real.pi) / fs = Real.arctan c by field_simp,
        Real.tan_arctan]
    unfold Design.power
    dsimp only
    rw [hw, hc2, sub_self, zero_div, zero_pow (by omega)]
    norm_num

theorem edges_lt (b : ℕ) (hb : 0 < b) (f : ℝ) (hf : 0 < f) : lowerEdge b f < upperEdge b f := by
  unfold lowerEdge upperEdge
  have h1 : (1 : ℝ) < octaveRatio := by
    unfold octaveRatio
    exact Real.one_lt_rpow (by norm_num) (by norm_num)
  have hb' : (0 : ℝ) < b := by exact_mod_cast hb
  have : octaveRatio ^ (-1 / 2 / (b : ℝ)) < octaveRatio ^ (1 / 2 / (b : ℝ)) := by
    refine Real.rpow_lt_rpow_of_exponent_lt h1 ?_
    rw [div_lt_div_iff_of_pos_right hb']
    norm_num
  exact mul_lt_mul_of_pos_left this hf

/-- "For even filter orders, this filter bank is energy preserving" is wrong for every bank with at
least two filters, whatever the order: for each band-pass filter there is a frequency inside its
band at which the powers of all filters add up to more than 1. -/
theorem C131_energy_preserving_wrong (range : List ℝ) (b fs order : ℕ) (B : Bank) (hb : 0 < b)
    (ho : 0 < order) (h : octaveBands range b (some fs) = .ok B) (hn : 2 ≤ B.filters.length)
    (l u : ℝ) (hd : Design.bandpass l u ∈ B.filters) :
    ∃ f, l < f ∧ f < u ∧ 1 < (B.filters.map fun d => d.power fs order f).sum := by
  have hv := C131_valid _ _ _ _ h _ hd
  have hlu : l < u := by
    obtain ⟨x, y, nom, exact, rfl, _, _, hv, rfl⟩ := bank_ok h
    obtain ⟨f, hf, he⟩ := List.mem_map.mp hd
    have hvf := hv f hf
    unfold design at he hvf
    split_ifs at he hvf
    cases he
    refine edges_lt b hb f ?_
    have : 0 < f * octaveRatio ^ (-1 / 2 / (b : ℝ)) := hvf.1
    exact (mul_pos_iff_of_pos_right (ratio_pos b _)).mp this
  obtain ⟨f, h1, h2, h3⟩ := full_power fs order l u hv.1 hlu hv.2.2.2 ho
  refine ⟨f, h1, h2, ?_⟩
  obtain ⟨s, t, e⟩ := List.append_of_mem hd
  rw [e] at hn ⊢
  have hpos : ∀ L : List Design, 0 ≤ (L.map fun d => d.power fs order f).sum ∧
      (L ≠ [] → 0 < (L.map fun d => d.power fs order f).sum) := by
    intro L
    induction L with
    | nil => exact ⟨le_rfl, fun h => absurd rfl h⟩
    | cons d L ih =>
      have := (C131_power_bounds fs order f d).1
      rw [List.map_cons, List.sum_cons]
      exact ⟨by linarith [ih.1], fun _ => by linarith [ih.1]⟩
  rw [List.map_append, List.map_cons, List.sum_append, List.sum_cons, h3]
  have hst : s ≠ [] ∨ t ≠ [] := by
    by_contra hcon
    push Not at hcon
    rw [hcon.1, hcon.2] at hn
    simp at hn
  rcases hst with hs | ht
  · linarith [(hpos s).2 hs, (hpos t).1]
  · linarith [(hpos s).1, (hpos t).2 ht]

/-- An octave band whose upper limit is exactly half of an even sampling rate is refused with a
ValueError from the design instead of becoming a high-pass filter: both cases fail to catch it. -/
theorem C131_limit_at_nyquist (fs b : ℕ) (f : ℝ) (h : upperEdge b f = (fs : ℝ) / 2)
    (he : fs % 2 = 0) : ¬ (design fs b f).Valid fs := by
  have hh : ((fs / 2 : ℕ) : ℝ) = (fs : ℝ) / 2 := by
    rw [Nat.cast_div (by omega) (by norm_num)]
    norm_num
  unfold design
  rw [if_neg (by rw [hh, h]; exact lt_irrefl _)]
  intro hv
  have := hv.2.2.2
  rw [h] at this
  exact lt_irrefl _ this

/-! ### A concrete bank: the four octaves of the bass ratio -/

theorem exact_bass : [125, 250, 500, 1000].map (exactOf 1) =
    [-3, -2, -1, 0].map fun (k : ℤ) => 1000 * octaveRatio ^ (k : ℝ) := by
  have h := C105_octaves
  unfold nominal at h
  rw [if_pos rfl] at h
  have e : arange (-5) 5 = [-5, -4, -3, -2, -1, 0, 1, 2, 3, 4] := by decide
  rw [e] at h
  simp only [List.map_cons, List.map_nil, List.cons.injEq] at h ⊢
  obtain ⟨_, _, h1, h2, h3, h4, _⟩ := h
  exact ⟨h1, h2, h3, h4, trivial⟩

theorem bass_grid : octaveFrequencies 1 [125, 1000] =
    .ok ([125, 250, 500, 1000], [-3, -2, -1, 0].map fun (k : ℤ) => 1000 * octaveRatio ^ (k : ℝ)) := by
  unfold octaveFrequencies
  dsimp only
  rw [if_neg (by norm_num), if_pos (Or.inl rfl)]
  have : (nominal 1).filter (fun f => decide ((125 : ℝ) ≤ f ∧ f ≤ 1000)) = [125, 250, 500, 1000] := by
    unfold nominal
    rw [if_pos rfl]
    norm_num [List.filter]
  rw [this, exact_bass]

theorem ratio_bounds : (1 : ℝ) < octaveRatio ∧ octaveRatio < 2 ∧ octaveRatio ^ (1 / 2 : ℝ) < 3 / 2 := by
  have h10 : octaveRatio ^ (10 : ℕ) = 1000 := by
    unfold octaveRatio
    rw [← Real.rpow_natCast, ← Real.rpow_mul (by norm_num)]
    norm_num
  have h1 : (1 : ℝ) < octaveRatio := Real.one_lt_rpow (by norm_num) (by norm_num)
  have h2 : octaveRatio < 2 := by
    by_contra hc
    push Not at hc
    have := pow_le_pow_left₀ (by norm_num : (0 : ℝ) ≤ 2) hc 10
    rw [h10] at this
    norm_num at this
  refine ⟨h1, h2, ?_⟩
  by_contra hc
  push Not at hc
  have h3 := pow_le_pow_left₀ (by norm_num : (0 : ℝ) ≤ 3 / 2) hc 2
  rw [← Real.sqrt_eq_rpow, Real.sq_sqrt (by linarith)] at h3
  linarith

/-- The bank of the bass ratio for every sampling rate from 3000 Hz on: four band-pass filters,
the octaves around 125, 250, 500 and 1000 Hz (exact centres `1000 · 10^(3k/10)`). -/
theorem C131_four_octaves (fs : ℕ) (hfs : 3000 ≤ fs) :
    ∃ B, octaveBands [125, 1000] 1 (some fs) = .ok B ∧
      B.centres = [-3, -2, -1, 0].map (fun (k : ℤ) => 1000 * octaveRatio ^ (k : ℝ)) ∧
      B.filters = B.centres.map fun f =>
        .bandpass (f * octaveRatio ^ (-1 / 2 : ℝ)) (f * octaveRatio ^ (1 / 2 : ℝ)) := by
  obtain ⟨r1, r2, r3⟩ := ratio_bounds
  have hf2 : (1500 : ℝ) ≤ ((fs / 2 : ℕ) : ℝ) := by
    have : 1500 ≤ fs / 2 := by omega
    exact_mod_cast this
  have hf2' : ((fs / 2 : ℕ) : ℝ) ≤ (fs : ℝ) / 2 := Nat.cast_div_le
  have hlow : (0 : ℝ) < octaveRatio ^ (-1 / 2 : ℝ) := Real.rpow_pos_of_pos octaveRatio_pos _
  have hmem : ∀ f ∈ [-3, -2, -1, 0].map (fun (k : ℤ) => 1000 * octaveRatio ^ (k : ℝ)), 0 < f ∧ f ≤ 1000 := by
    intro f hf
    obtain ⟨k, hk, rfl⟩ := List.mem_map.mp hf
    have hk0 : (k : ℝ) ≤ 0 := by
      have : k ≤ 0 := by
        simp only [List.mem_cons, List.not_mem_nil, or_false] at hk
        omega
      exact_mod_cast this
    have := Real.rpow_le_one_of_one_le_of_nonpos r1.le hk0
    have := Real.rpow_pos_of_pos octaveRatio_pos (k : ℝ)
    exact ⟨by linarith, by linarith⟩
  have hdes : ∀ f ∈ [-3, -2, -1, 0].map (fun (k : ℤ) => 1000 * octaveRatio ^ (k : ℝ)),
      design fs 1 f = .bandpass (f * octaveRatio ^ (-1 / 2 : ℝ)) (f * octaveRatio ^ (1 / 2 : ℝ)) ∧
      (design fs 1 f).Valid fs := by
    intro f hf
    obtain ⟨p1, p2⟩ := hmem f hf
    have hu : upperEdge 1 f = f * octaveRatio ^ (1 / 2 : ℝ) := by
      unfold upperEdge
      norm_num
    have hl : lowerEdge 1 f = f * octaveRatio ^ (-1 / 2 : ℝ) := by
      unfold lowerEdge
      norm_num
    have hlt := edges_lt 1 one_pos f p1
    have hub : upperEdge 1 f < 1500 := by
      rw [hu]
      nlinarith
    have hd : design fs 1 f = .bandpass (lowerEdge 1 f) (upperEdge 1 f) := by
      unfold design
      rw [if_neg (by linarith)]
    rw [hd]
    refine ⟨by rw [hu, hl], ?_⟩
    have : 0 < lowerEdge 1 f := by
      rw [hl]
      positivity
    exact ⟨this, by linarith, by linarith, by linarith⟩
  refine ⟨⟨([-3, -2, -1, 0].map fun (k : ℤ) => 1000 * octaveRatio ^ (k : ℝ)).map (design fs 1),
    [-3, -2, -1, 0].map fun (k : ℤ) => 1000 * octaveRatio ^ (k : ℝ),
    ([-3, -2, -1, 0].map fun (k : ℤ) => 1000 * octaveRatio ^ (k : ℝ)).map (lowerEdge 1),
    ([-3, -2, -1, 0].map fun (k : ℤ) => 1000 * octaveRatio ^ (k : ℝ)).map (upperEdge 1)⟩, ?_, rfl, ?_⟩
  · unfold octaveBands
    dsimp only
    rw [max_eq_right (by norm_num), min_eq_left (by norm_num), if_neg (by rw [not_not]; linarith),
      bass_grid]
    dsimp only
    rw [if_pos fun f hf => (hdes f hf).2]
  · exact List.map_congr_left fun f hf => (hdes f hf).1

/-- The hypotheses of the negation are met by this bank. -/
example : ∃ B, octaveBands [125, 1000] 1 (some 48000) = .ok B ∧ 2 ≤ B.filters.length ∧
    ∃ l u, Design.bandpass l u ∈ B.filters := by
  obtain ⟨B, h, hc, hf⟩ := C131_four_octaves 48000 (by norm_num)
  exact ⟨B, h, by rw [hf, hc]; simp, _, _, by rw [hf, hc]; exact List.mem_cons_self⟩

end Verif.OctaveBank
