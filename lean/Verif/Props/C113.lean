import Verif.Lemmas.Loudness
import Verif.Props.C34
import Verif.Props.C50
import Verif.Props.C21
import Mathlib.Algebra.Order.Floor.Semifield

/-!
# C113: integrated loudness
-/

namespace Verif.Loudness

open Verif.SignalData Verif.Bank Verif.Biquad Verif.Framing Verif.Level Verif.LFilter

/-- Transfer function of a section. -/
noncomputable def sectionSeries (c : Coeffs) : PowerSeries ℝ :=
  ratio [c.b0, c.b1, c.b2] [c.a0, c.a1, c.a2]

/-- Samples of a channel with K-weighting: a shelf of 4 dB above 1500 Hz, then a highpass at
38.1 Hz. -/
noncomputable def kWeighted (s : State ℝ) (fs c n : ℕ) : ℝ :=
  PowerSeries.coeff n (sectionSeries (biquad .highshelf fs 1500 4 (√2 / 2)) *
    sectionSeries (biquad .highpass fs 38.1 0 (1 / 2)) * chanZ s c)

/-- Samples of a block of 400 ms. -/
noncomputable def gateLength (fs : ℕ) : ℕ := ⌊(400 * 10⁻¹ ^ 3 * fs + 1 / 2 : ℝ)⌋₊

/-- A quarter of a block. -/
noncomputable def gateStep (fs : ℕ) : ℕ := ⌊(gateLength fs / 4 + 1 / 2 : ℝ)⌋₊

/-- Energy of the block `k`. -/
noncomputable def energy (s : State ℝ) (fs k : ℕ) : ℝ :=
  ∑ c ∈ Finset.range s.re.cols, weight c *
    ((∑ i ∈ Finset.range (gateLength fs), kWeighted s fs c (k * gateStep fs + i) ^ 2) / gateLength fs)

/-- Energies of the blocks that end before the last sample. -/
noncomputable def energies (s : State ℝ) (fs : ℕ) : List ℝ :=
  ((List.range s.re.rows).filter fun k => k * gateStep fs + gateLength fs < s.re.rows).map
    (energy s fs)

theorem gateLength_eq (fs : ℕ) : gateLength fs = blockLength fs := by
  unfold gateLength blockLength
  rw [show (400 * 10⁻¹ ^ 3 * fs + 1 / 2 : ℝ) = ((4 * fs + 5 : ℕ) : ℝ) / (10 : ℕ) by push_cast; ring,
    Nat.floor_div_eq_div]

theorem gateStep_eq (fs : ℕ) : gateStep fs = stepLength fs := by
  unfold gateStep stepLength
  rw [gateLength_eq, show ((blockLength fs : ℝ) / 4 + 1 / 2 : ℝ) =
    ((blockLength fs + 2 : ℕ) : ℝ) / (4 : ℕ) by push_cast; ring, Nat.floor_div_eq_div]

theorem filter_range (P : ℕ → Bool) (n m : ℕ) (hnm : n ≤ m) (h : ∀ k, P k = true ↔ k < n) :
    (List.range m).filter P = List.range n := by
  induction m with
  | zero =>
    have : n = 0 := by omega
    subst this; rfl
  | succ m ih =>
    rw [List.range_succ, List.filter_append]
    by_cases hn : n ≤ m
    · have hP : P m = false := by
        have := h m
        cases hp : P m
        · rfl
        · exact absurd (this.mp hp) (by omega)
      rw [ih hn]
      simp [hP]
    · have : n = m + 1 := by omega
      subst this
      rw [List.filter_eq_self.mpr fun k hk => (h k).mpr (by have := List.mem_range.mp hk; omega)]
      simp [(h m).mpr (by omega), List.range_succ]

theorem meanOf_lt {l : List ℝ} {t : ℝ} (hl : l ≠ []) (h : ∀ v ∈ l, v < t) : meanOf l < t := by
  have h1 := lt_meanOf (l := l.map fun v => -v) (t := -t) (by simpa using hl) (by
    intro v hv
    obtain ⟨w, hw, rfl⟩ := List.mem_map.mp hv
    have := h w hw
    linarith)
  have h2 : ∀ l : List ℝ, (l.map fun v => -v).sum = -l.sum := by
    intro l
    induction l with
    | nil => simp
    | cons a l ih => rw [List.map_cons, List.sum_cons, ih, List.sum_cons]; ring
  unfold meanOf at h1 ⊢
  rw [h2, List.length_map, neg_div] at h1
  linarith

theorem meanOf_filter_ge (l : List ℝ) (t : ℝ) (ht : t ≤ meanOf l)
    (hk : (l.filter fun v => t < v) ≠ []) : meanOf l ≤ meanOf (l.filter fun v => t < v) := by
  have hpos : (0 : ℝ) < (l.filter fun v => t < v).length := by
    exact_mod_cast List.length_pos_of_ne_nil hk
  have hl : 0 < l.length := by
    have := List.length_filter_le (fun v => decide (t < v)) l
    have h2 := List.length_pos_of_ne_nil hk
    omega
  have key : ∀ (m : ℝ) (l : List ℝ), t ≤ m →
      l.sum - m * l.length ≤ (l.filter fun v => t < v).sum - m * (l.filter fun v => t < v).length := by
    intro m l hm
    induction l with
    | nil => simp
    | cons a l ih =>
      by_cases ha : t < a
      · rw [List.filter_cons_of_pos (by simpa using ha)]
        simp only [List.sum_cons, List.length_cons]
        push_cast
        linarith
      · rw [List.filter_cons_of_neg (by simpa using ha)]
        simp only [List.sum_cons, List.length_cons]
        push_cast
        linarith
  have h1 := key (meanOf l) l ht
  have h2 : meanOf l * l.length = l.sum := by
    unfold meanOf
    rw [div_mul_cancel₀]
    exact_mod_cast hl.ne'
  rw [h2] at h1
  rw [show meanOf (l.filter fun v => t < v) = (l.filter fun v => t < v).sum /
    (l.filter fun v => t < v).length from rfl, le_div_iff₀ hpos]
  linarith

/-- What is known about the external conversion of the two sections to second-order sections: it
keeps their transfer functions. -/
def Converts (tf2sos : List ℝ → List ℝ → List (List ℝ × List ℝ)) (fs : ℕ) : Prop :=
  ConvertsWell tf2sos (biquadFilter .highshelf 1500 4 (2 ^ (0.5 : ℝ) / 2) fs).filt ∧
    ConvertsWell tf2sos (biquadFilter .highpass 38.1 0 0.5 fs).filt

theorem inside_1500 {fs : ℕ} (h : 3000 < fs) : Inside (fs : ℝ) 1500 := by
  have : (3000 : ℝ) < fs := by exact_mod_cast h
  exact ⟨by norm_num, by linarith⟩

theorem inside_38 {fs : ℕ} (h : 3000 < fs) : Inside (fs : ℝ) 38.1 := by
  have : (3000 : ℝ) < fs := by exact_mod_cast h
  exact ⟨by norm_num, by linarith⟩

theorem kFilter_ok (tf2sos : List ℝ → List ℝ → List (List ℝ × List ℝ)) (fs : ℕ) (h : 3000 < fs)
    (hc : Converts tf2sos fs) :
    ∃ k, kFilter tf2sos fs = .ok k ∧ k.filt.Proper ∧
      k.filt.H = sectionSeries (biquad .highshelf fs 1500 4 (√2 / 2)) *
        sectionSeries (biquad .highpass fs 38.1 0 (1 / 2)) := by
  have hex : ∃ k, kFilter tf2sos fs = .ok k := by
    unfold kFilter mergeFilters
    simp [biquadFilter, Filt.isFir]
  obtain ⟨k, hk⟩ := hex
  have hq1 : (2 : ℝ) ^ (0.5 : ℝ) / 2 = √2 / 2 := by
    rw [Real.sqrt_eq_rpow]; norm_num
  have hq : (0 : ℝ) < √2 / 2 := by positivity
  have h1 := (C34_stable .highshelf fs 1500 4 (√2 / 2) (inside_1500 h) hq).1
  have h2 := (C34_stable .highpass fs 38.1 0 (0.5) (inside_38 h) (by norm_num)).1
  have hp : ∀ f ∈ [biquadFilter .highshelf 1500 4 (2 ^ (0.5 : ℝ) / 2) fs,
      biquadFilter .highpass 38.1 0 0.5 fs], f.filt.Proper := by
    intro f hf
    simp only [List.mem_cons, List.not_mem_nil, or_false] at hf
    rcases hf with rfl | rfl
    · show ([_, _, _] : List ℝ).getD 0 0 ≠ 0
      rw [hq1]
      simpa using h1
    · show ([_, _, _] : List ℝ).getD 0 0 ≠ 0
      simpa using h2
  obtain ⟨hH, hP⟩ := merge_H tf2sos _ k hk hp (by
    intro f hf _
    simp only [List.mem_cons, List.not_mem_nil, or_false] at hf
    rcases hf with rfl | rfl
    · exact hc.1
    · exact hc.2)
  refine ⟨k, hk, hP, ?_⟩
  rw [hH]
  simp only [List.map_cons, List.map_nil, List.prod_cons, List.prod_nil, mul_one]
  rw [← hq1, show (1 / 2 : ℝ) = 0.5 by norm_num]
  rfl

theorem setConstrain_ok (s : State ℝ) (hs : Shaped s) (b : Bool) : (setConstrain s b).1 = none := by
  cases b with
  | false => rfl
  | true =>
    have h1 := hs.one
    have h2 := hs.tall
    have h3 := hs.more
    have hst : standardForm (State.reInput ⟨s.re, s.im, true, s.scale⟩) =
        .ok (State.reInput ⟨s.re, s.im, true, s.scale⟩) :=
      standardForm_ok _ h2 fun h => h3 h.1
    simp only [setConstrain, if_true, setData, hst]
    rw [if_neg (by simp only [State.reInput]; omega)]
    split_ifs <;> rfl

/-- The call on a signal with at most five channels. -/
theorem call_ok (tf2sos : List ℝ → List ℝ → List (List ℝ × List ℝ)) (s : State ℝ) (fs : ℕ)
    (hs : Shaped s) (h5 : s.re.cols ≤ 5) (hfs : 3000 < fs) (hc : Converts tf2sos fs) :
    ∃ p : State ℝ, p.re.rows = s.re.rows ∧ p.re.cols = s.re.cols ∧
      (∀ c < s.re.cols, ∀ n < s.re.rows, p.re.val n c = kWeighted s fs c n) ∧
      lufsIntegrated tf2sos s fs =
        (match blocks p.re (blockLength fs) (stepLength fs) with
          | .error e => .error e
          | .ok z => .ok (integrate s.re.cols (channelWeights s.re.cols) z),
        (setConstrain ⟨s.re, s.im, false, s.scale⟩ s.constrain).2) := by
  obtain ⟨k, hk, hP, hH⟩ := kFilter_ok tf2sos fs hfs hc
  have hs1 : Shaped (⟨s.re, s.im, false, s.scale⟩ : State ℝ) := ⟨hs.one, hs.tall, hs.more⟩
  obtain ⟨p, hp, hshape, -, -, hv⟩ := filterSignal_ok k.filt hP ⟨s.re, s.im, false, s.scale⟩ hs1 rfl
  refine ⟨p, hshape.1, hshape.2, fun c hcc n hn => ?_, ?_⟩
  · have h1 := hv c hcc n hn
    unfold kWeighted
    rw [hH] at h1
    have h2 : chanZ (⟨s.re, s.im, false, s.scale⟩ : State ℝ) c = chanZ s c := rfl
    rw [h2] at h1
    rw [← h1, chanZ_eq p c (by rw [hshape.2]; exact hcc), zseries_coeff, colOf_getD,
      if_pos (by rw [hshape.1]; exact hn)]
  · unfold lufsIntegrated
    rw [if_neg (not_not.mpr h5), hk]
    simp only
    have e1 : (setConstrain s false).2 = ⟨s.re, s.im, false, s.scale⟩ := rfl
    rw [e1, hp]
    have h2 := setConstrain_ok _ hs1 s.constrain
    generalize hg : setConstrain (⟨s.re, s.im, false, s.scale⟩ : State ℝ) s.constrain = g at h2 ⊢
    obtain ⟨g1, g2⟩ := g
    simp only at h2
    subst h2
    rfl

theorem stepLength_pos {fs : ℕ} (h : 3000 < fs) : 0 < stepLength fs := by
  unfold stepLength blockLength
  omega

theorem energies_eq (s : State ℝ) (fs : ℕ) (hfs : 3000 < fs) (hW : blockLength fs ≤ s.re.rows) :
    energies s fs = (List.range (blockCount s.re.rows (blockLength fs) (stepLength fs))).map
      (energy s fs) := by
  unfold energies
  rw [gateLength_eq, gateStep_eq]
  congr 1
  have hst := stepLength_pos hfs
  refine filter_range _ _ _ ?_ fun k => ?_
  · by_contra hcon
    have := (lt_blockCount s.re.rows _ _ hst hW s.re.rows).mp (by omega)
    have h3 := Nat.le_mul_of_pos_right s.re.rows hst
    omega
  · rw [lt_blockCount _ _ _ hst hW]
    simp

/-- The loudness returned for a signal of at least 400 ms, at most five channels and a sampling
rate above 3000 Hz is the gated loudness of its K-weighted blocks (missing: the last block if it
ends with the last sample). -/
theorem C113_loudness_partial (tf2sos : List ℝ → List ℝ → List (List ℝ × List ℝ)) (s : State ℝ)
    (fs : ℕ) (hs : Shaped s) (h5 : s.re.cols ≤ 5) (hfs : 3000 < fs) (hc : Converts tf2sos fs)
    (hW : gateLength fs ≤ s.re.rows) :
    (lufsIntegrated tf2sos s fs).1 = .ok ((gated (energies s fs)).map fun L => ((L : ℝ) : WithBot ℝ)) := by
  obtain ⟨p, h1, h2, h3, h4⟩ := call_ok tf2sos s fs hs h5 hfs hc
  rw [gateLength_eq] at hW
  have hst := stepLength_pos hfs
  rw [h4, blocks_ok p.re _ _ (by rw [h2]; exact hs.one) hst (by rw [h1]; exact hW)]
  simp only
  set zs := (List.range (blockCount p.re.rows (blockLength fs) (stepLength fs))).map fun (j : ℕ) =>
      (List.range p.re.cols).map fun (c : ℕ) =>
        (∑ i ∈ Finset.range (blockLength fs), p.re.val (j * stepLength fs + i) c ^ 2) / blockLength fs
    with hzs
  have hz : ∀ z ∈ zs, z.length = s.re.cols := by
    intro z hz
    obtain ⟨j, -, rfl⟩ := List.mem_map.mp hz
    simp [h2]
  have he : zs.map (blockEnergy s.re.cols) = energies s fs := by
    rw [energies_eq s fs hfs hW, hzs, List.map_map, h1]
    refine List.map_congr_left fun j hj => ?_
    have hj' := (lt_blockCount s.re.rows _ _ hst hW j).mp (List.mem_range.mp hj)
    simp only [Function.comp]
    unfold blockEnergy energy
    rw [gateLength_eq, gateStep_eq]
    refine Finset.sum_congr rfl fun c hcc => ?_
    have hcc' := Finset.mem_range.mp hcc
    rw [getD_map_range, if_pos (by rw [h2]; exact hcc')]
    congr 2
    refine Finset.sum_congr rfl fun i hi => ?_
    have hi' := Finset.mem_range.mp hi
    rw [h3 c hcc' _ (by omega)]
  have h0 : ∀ z ∈ zs, 0 ≤ blockEnergy s.re.cols z := by
    intro z hz
    obtain ⟨j, -, rfl⟩ := List.mem_map.mp hz
    unfold blockEnergy
    refine Finset.sum_nonneg fun c _ => mul_nonneg (weight_pos c).le ?_
    rw [getD_map_range]
    split_ifs
    · exact div_nonneg (Finset.sum_nonneg fun i _ => sq_nonneg _) (Nat.cast_nonneg _)
    · exact le_refl _
  rw [integrate_eq s.re.cols h5 zs hz h0, he]
  unfold gated lufs
  split_ifs <;> rfl

/-- More than five channels are refused and the signal is left alone. -/
theorem C113_refused (tf2sos : List ℝ → List ℝ → List (List ℝ × List ℝ)) (s : State ℝ) (fs : ℕ)
    (h : 5 < s.re.cols) : lufsIntegrated tf2sos s fs = (.error .assertionError, s) := by
  unfold lufsIntegrated
  rw [if_pos (by omega)]

/-- There is a result exactly if a block is louder than -70 LUFS. It is above -70 LUFS, not below
the mean loudness of the blocks louder than -70 LUFS and not above the loudest block. -/
theorem C113_bounds (tf2sos : List ℝ → List ℝ → List (List ℝ × List ℝ)) (s : State ℝ)
    (fs : ℕ) (hs : Shaped s) (h5 : s.re.cols ≤ 5) (hfs : 3000 < fs) (hc : Converts tf2sos fs)
    (hW : gateLength fs ≤ s.re.rows) :
    ((∀ v ∈ energies s fs, v = 0 ∨ lufs v ≤ -70) → (lufsIntegrated tf2sos s fs).1 = .ok none) ∧
    ((∃ v ∈ energies s fs, v ≠ 0 ∧ -70 < lufs v) →
      ∃ L : ℝ, (lufsIntegrated tf2sos s fs).1 = .ok (some (L : WithBot ℝ)) ∧ -70 < L ∧
        lufs (meanOf (passing (energies s fs))) ≤ L ∧ ∃ v ∈ energies s fs, L ≤ lufs v) := by
  rw [C113_loudness_partial tf2sos s fs hs h5 hfs hc hW]
  have h0 : ∀ v ∈ energies s fs, 0 ≤ v := by
    intro v hv
    obtain ⟨k, -, rfl⟩ := List.mem_map.mp hv
    exact Finset.sum_nonneg fun c _ => mul_nonneg (weight_pos c).le
      (div_nonneg (Finset.sum_nonneg fun i _ => sq_nonneg _) (Nat.cast_nonneg _))
  generalize energies s fs = e at h0
  have hthr : ∀ v, 0 < v → ((10 : ℝ) ^ (((-70 : ℝ) + 0.691) / 10) < v ↔ -70 < lufs v) := by
    intro v hv
    rw [← Real.lt_logb_iff_rpow_lt (by norm_num) hv]
    unfold lufs
    constructor <;> intro h <;> linarith
  constructor
  · intro h
    have : passing e = [] := by
      rw [passing, List.filter_eq_nil_iff]
      intro v hv hp
      have hp' : (10 : ℝ) ^ (((-70 : ℝ) + 0.691) / 10) < v := by simpa using hp
      have hv0 : 0 < v := lt_trans (by positivity) hp'
      rcases h v hv with h | h
      · exact hv0.ne' h
      · exact absurd ((hthr v hv0).mp hp') (not_lt.mpr h)
    unfold gated
    rw [if_pos this]
    rfl
  · rintro ⟨v, hv, hv0, hvl⟩
    have hvp : v ∈ passing e := List.mem_filter.mpr ⟨hv, by
      simpa using (hthr v ((h0 v hv).lt_of_ne' hv0)).mpr hvl⟩
    have hne : passing e ≠ [] := List.ne_nil_of_mem hvp
    have hk := kept_ne_nil hne
    have hmk : 0 < meanOf (kept e) := lt_meanOf hk fun v hv => kept_pos hv
    have hmp : 0 < meanOf (passing e) := lt_meanOf hne fun v hv => passing_pos hv
    refine ⟨lufs (meanOf (kept e)), by unfold gated; rw [if_neg hne]; rfl, ?_, ?_, ?_⟩
    · refine (hthr _ hmk).mp (lt_meanOf hk fun v hv => ?_)
      have := (List.mem_filter.mp (List.mem_filter.mp hv).1).2
      simpa using this
    · have hle : meanOf (passing e) ≤ meanOf (kept e) := meanOf_filter_ge _ _ (by linarith) hk
      unfold lufs
      have := (Real.logb_le_logb (b := 10) (by norm_num) hmp hmk).mpr hle
      linarith
    · by_contra hcon
      push Not at hcon
      have h1 : ∀ v ∈ kept e, v < meanOf (kept e) := by
        intro v hv
        have hve : v ∈ e := (List.mem_filter.mp (List.mem_filter.mp hv).1).1
        have h2 := hcon v hve
        unfold lufs at h2
        exact (Real.logb_lt_logb_iff (b := 10) (by norm_num) (kept_pos hv) hmk).mp (by linarith)
      exact absurd (meanOf_lt hk h1) (lt_irrefl _)

/-- Every gain of `g` (linear) changes the loudness by `20 log10 |g|`, as long as the gain moves no
block over the absolute gate (other blocks would be taken otherwise). -/
theorem C113_gain (tf2sos : List ℝ → List ℝ → List (List ℝ × List ℝ)) (s t : State ℝ) (g : ℝ)
    (fs : ℕ) (hs : Shaped s) (h5 : s.re.cols ≤ 5) (hfs : 3000 < fs) (hc : Converts tf2sos fs)
    (hW : gateLength fs ≤ s.re.rows) (hg : g ≠ 0) (ht : t.HasShape s.re.rows s.re.cols)
    (hv : ∀ r < s.re.rows, ∀ c < s.re.cols, t.sample r c = g * s.sample r c)
    (hgate : ∀ v ∈ energies s fs, (0 < v ∧ -70 < lufs v ↔ 0 < v ∧ -70 < lufs (g ^ 2 * v))) (L : ℝ) :
    ((lufsIntegrated tf2sos s fs).1 = .ok (some (L : WithBot ℝ)) →
      (lufsIntegrated tf2sos t fs).1 = .ok (some ((L + 20 * Real.logb 10 |g| : ℝ) : WithBot ℝ))) ∧
    ((lufsIntegrated tf2sos s fs).1 = .ok none → (lufsIntegrated tf2sos t fs).1 = .ok none) := by
  have hts : Shaped t := ⟨by rw [ht.2]; exact hs.one, by rw [ht.1, ht.2]; exact hs.tall,
    by rw [ht.1]; exact hs.more⟩
  rw [C113_loudness_partial tf2sos s fs hs h5 hfs hc hW,
    C113_loudness_partial tf2sos t fs hts (by rw [ht.2]; exact h5) hfs hc (by rw [ht.1]; exact hW)]
  have hk : ∀ c < s.re.cols, ∀ n, kWeighted t fs c n = g * kWeighted s fs c n := by
    intro c hcc n
    unfold kWeighted
    have : chanZ t c = PowerSeries.C g * chanZ s c := by
      ext k
      unfold chanZ
      rw [PowerSeries.coeff_C_mul, zseries_coeff, zseries_coeff, getD_map_range, getD_map_range, ht.1]
      split_ifs with hk
      · exact hv k hk c hcc
      · rw [mul_zero]
    rw [this, show ∀ a b x : PowerSeries ℝ, a * (b * x) = b * (a * x) from fun a b x => by ring,
      PowerSeries.coeff_C_mul]
  have he : energies t fs = (energies s fs).map fun v => g ^ 2 * v := by
    unfold energies
    rw [List.map_map, ht.1]
    refine List.map_congr_left fun j _ => ?_
    simp only [Function.comp]
    unfold energy
    rw [ht.2, Finset.mul_sum]
    refine Finset.sum_congr rfl fun c hcc => ?_
    simp only [hk c (Finset.mem_range.mp hcc), mul_pow, ← Finset.mul_sum]
    ring
  have hg2 : 0 < g ^ 2 := by positivity
  have h0 : ∀ v ∈ energies s fs, 0 ≤ v := by
    intro v hv
    obtain ⟨k, -, rfl⟩ := List.mem_map.mp hv
    exact Finset.sum_nonneg fun c _ => mul_nonneg (weight_pos c).le
      (div_nonneg (Finset.sum_nonneg fun i _ => sq_nonneg _) (Nat.cast_nonneg _))
  rw [he]
  generalize energies s fs = e at h0 hgate
  have hthr : ∀ v, 0 < v → ((10 : ℝ) ^ (((-70 : ℝ) + 0.691) / 10) < v ↔ -70 < lufs v) := by
    intro v hv
    rw [← Real.lt_logb_iff_rpow_lt (by norm_num) hv]
    unfold lufs
    constructor <;> intro h <;> linarith
  have hpass : passing (e.map fun v => g ^ 2 * v) = (passing e).map fun v => g ^ 2 * v := by
    unfold passing
    rw [List.filter_map]
    congr 1
    refine List.filter_congr fun v hv => ?_
    simp only [Function.comp]
    rw [decide_eq_decide]
    rcases (h0 v hv).eq_or_lt with h | h
    · rw [← h, mul_zero]
    · rw [hthr v h, hthr _ (by positivity)]
      have := hgate v hv
      constructor <;> intro h'
      · exact (this.mpr ⟨h, h'⟩).2
      · exact (this.mp ⟨h, h'⟩).2
  have hmean : ∀ l : List ℝ, meanOf (l.map fun v => g ^ 2 * v) = g ^ 2 * meanOf l := by
    intro l
    unfold meanOf
    rw [List.sum_map_mul_left, List.length_map, List.map_id', mul_div_assoc]
  have hkept : kept (e.map fun v => g ^ 2 * v) = (kept e).map fun v => g ^ 2 * v := by
    unfold kept
    rw [hpass, hmean, List.filter_map]
    congr 1
    refine List.filter_congr fun v hv => ?_
    simp only [Function.comp]
    rw [decide_eq_decide, mul_div_assoc, mul_lt_mul_iff_right₀ hg2]
  unfold gated
  rw [hpass, hkept, hmean]
  by_cases hne : passing e = []
  · rw [if_pos hne, if_pos (by rw [hne]; rfl)]
    exact ⟨fun h => absurd h (by simp), fun _ => rfl⟩
  · rw [if_neg hne, if_neg (by simpa using hne)]
    have hmk : 0 < meanOf (kept e) := lt_meanOf (kept_ne_nil hne) fun v hv => kept_pos hv
    refine ⟨fun h => ?_, fun h => absurd h (by simp)⟩
    have hL : lufs (meanOf (kept e)) = L := by
      have := Except.ok.inj h
      simpa using this
    rw [← hL]
    simp only [Option.map_some]
    congr 3
    unfold lufs
    rw [Real.logb_mul hg2.ne' hmk.ne', ← sq_abs g, ← Real.rpow_natCast |g| 2,
      Real.logb_rpow_eq_mul_logb_of_pos (abs_pos.mpr hg)]
    push_cast
    ring

/-- The channels of equal weight can be exchanged. -/
theorem C113_channels (tf2sos : List ℝ → List ℝ → List (List ℝ × List ℝ)) (s t : State ℝ)
    (σ : Equiv.Perm ℕ) (fs : ℕ) (hs : Shaped s) (h5 : s.re.cols ≤ 5) (hfs : 3000 < fs)
    (hc : Converts tf2sos fs) (hW : gateLength fs ≤ s.re.rows) (ht : t.HasShape s.re.rows s.re.cols)
    (hσ : ∀ c, σ c < s.re.cols ↔ c < s.re.cols) (hw : ∀ c < s.re.cols, (c < 3 ↔ σ c < 3))
    (hv : ∀ r < s.re.rows, ∀ c < s.re.cols, t.sample r c = s.sample r (σ c)) :
    (lufsIntegrated tf2sos t fs).1 = (lufsIntegrated tf2sos s fs).1 := by
  have hts : Shaped t := ⟨by rw [ht.2]; exact hs.one, by rw [ht.1, ht.2]; exact hs.tall,
    by rw [ht.1]; exact hs.more⟩
  rw [C113_loudness_partial tf2sos s fs hs h5 hfs hc hW,
    C113_loudness_partial tf2sos t fs hts (by rw [ht.2]; exact h5) hfs hc (by rw [ht.1]; exact hW)]
  have he : energies t fs = energies s fs := by
    unfold energies
    rw [ht.1]
    refine List.map_congr_left fun j _ => ?_
    unfold energy
    rw [ht.2]
    refine Finset.sum_bij (fun c _ => σ c) (fun c hcc => ?_) (fun a _ b _ h => σ.injective h)
      (fun c hcc => ⟨σ.symm c, ?_, by simp⟩) fun c hcc => ?_
    · exact Finset.mem_range.mpr ((hσ c).mpr (Finset.mem_range.mp hcc))
    · have := hσ (σ.symm c)
      rw [Equiv.apply_symm_apply] at this
      exact Finset.mem_range.mpr (this.mp (Finset.mem_range.mp hcc))
    · have hcc' := Finset.mem_range.mp hcc
      have h1 : weight c = weight (σ c) := by
        unfold weight
        by_cases h3 : c < 3
        · rw [if_pos h3, if_pos ((hw c hcc').mp h3)]
        · rw [if_neg h3, if_neg fun h => h3 ((hw c hcc').mpr h)]
      have h2 : chanZ t c = chanZ s (σ c) := by
        unfold chanZ
        rw [ht.1]
        congr 1
        exact List.map_congr_left fun r hr => hv r (List.mem_range.mp hr) c hcc'
      rw [h1]
      unfold kWeighted
      rw [h2]
  rw [he]

/-- A silent channel at the end changes nothing. -/
theorem C113_silent_channel (tf2sos : List ℝ → List ℝ → List (List ℝ × List ℝ)) (s t : State ℝ)
    (fs : ℕ) (hs : Shaped s) (h5 : s.re.cols < 5) (hfs : 3000 < fs)
    (hc : Converts tf2sos fs) (hW : gateLength fs ≤ s.re.rows) (hts : Shaped t)
    (ht : t.HasShape s.re.rows (s.re.cols + 1))
    (hv : ∀ r < s.re.rows, ∀ c < s.re.cols, t.sample r c = s.sample r c)
    (h0 : ∀ r < s.re.rows, t.sample r s.re.cols = 0) :
    (lufsIntegrated tf2sos t fs).1 = (lufsIntegrated tf2sos s fs).1 := by
  rw [C113_loudness_partial tf2sos s fs hs (by omega) hfs hc hW,
    C113_loudness_partial tf2sos t fs hts (by rw [ht.2]; omega) hfs hc (by rw [ht.1]; exact hW)]
  have he : energies t fs = energies s fs := by
    unfold energies
    rw [ht.1]
    refine List.map_congr_left fun j _ => ?_
    unfold energy
    rw [ht.2, Finset.sum_range_succ]
    have hz : chanZ t s.re.cols = 0 := by
      ext k
      unfold chanZ
      rw [zseries_coeff, getD_map_range, ht.1]
      split_ifs with hk
      · rw [h0 k hk]; simp
      · simp
    have hz' : ∀ n, kWeighted t fs s.re.cols n = 0 := by
      intro n
      unfold kWeighted
      rw [hz, mul_zero, map_zero]
    simp only [hz']
    simp only [ne_eq, OfNat.ofNat_ne_zero, not_false_eq_true, zero_pow, Finset.sum_const_zero,
      zero_div, mul_zero, add_zero]
    refine Finset.sum_congr rfl fun c hcc => ?_
    have hcc' := Finset.mem_range.mp hcc
    have h2 : chanZ t c = chanZ s c := by
      unfold chanZ
      rw [ht.1]
      congr 1
      exact List.map_congr_left fun r hr => hv r (List.mem_range.mp hr) c hcc'
    unfold kWeighted
    rw [h2]
  rw [he]

/-- A signal of exactly one block has no loudness, however loud it is: the block is dropped. -/
theorem C113_one_block_dropped (tf2sos : List ℝ → List ℝ → List (List ℝ × List ℝ)) (s : State ℝ)
    (fs : ℕ) (hs : Shaped s) (h5 : s.re.cols ≤ 5) (hfs : 3000 < fs) (hc : Converts tf2sos fs)
    (hW : s.re.rows = gateLength fs) : (lufsIntegrated tf2sos s fs).1 = .ok none := by
  rw [C113_loudness_partial tf2sos s fs hs h5 hfs hc hW.ge]
  have : energies s fs = [] := by
    unfold energies
    rw [hW]
    simp
  rw [this]
  unfold gated passing
  rw [if_pos (by rfl)]
  rfl

/-- Shorter signals have no loudness either (`nan`) if they are short of less than a step, and
otherwise the call raises ValueError. -/
theorem C113_short (tf2sos : List ℝ → List ℝ → List (List ℝ × List ℝ)) (s : State ℝ)
    (fs : ℕ) (hs : Shaped s) (h5 : s.re.cols ≤ 5) (hfs : 3000 < fs) (hc : Converts tf2sos fs)
    (hW : s.re.rows < gateLength fs) :
    (lufsIntegrated tf2sos s fs).1 =
      if gateLength fs - s.re.rows < gateStep fs then .ok none else .error .valueError := by
  obtain ⟨p, h1, h2, h3, h4⟩ := call_ok tf2sos s fs hs h5 hfs hc
  rw [gateLength_eq] at hW ⊢
  rw [gateStep_eq, h4]
  simp only
  have hb : ∀ c, blockMeans (colOf p.re c) (blockLength fs) (stepLength fs) =
      if blockLength fs - s.re.rows < stepLength fs then .ok [] else .error .valueError := by
    intro c
    unfold blockMeans
    rw [C21_no_keep_short _ _ _ (stepLength_pos hfs) (by rw [List.length_map, colOf_length, h1]; exact hW),
      List.length_map, colOf_length, h1]
    split_ifs <;> rfl
  have hcols : ∃ n, p.re.cols = n + 1 := ⟨s.re.cols - 1, by have := hs.one; omega⟩
  obtain ⟨n, hn⟩ := hcols
  unfold blocks
  simp only [hb]
  split_ifs with hlt
  · rw [mapM_ok _ (fun _ => []) _ fun _ _ => rfl]
    simp only
    rw [hn]
    simp [List.range_succ_eq_map, integrate, relativeGate, above, meanRows]
  · rw [hn, List.range_succ_eq_map, List.mapM_cons]
    rfl

/-- A real signal that does not constrain its amplitude is not touched. -/
theorem C113_signal_untouched (tf2sos : List ℝ → List ℝ → List (List ℝ × List ℝ)) (s : State ℝ)
    (fs : ℕ) (h : s.constrain = false) : (lufsIntegrated tf2sos s fs).2 = s := by
  obtain ⟨re, im, con, scale⟩ := s
  simp only at h
  subst h
  unfold lufsIntegrated
  by_cases h5 : ¬ re.cols ≤ 5
  · rw [if_pos h5]
  · rw [if_neg h5]
    cases hk : kFilter tf2sos fs with
    | error e => rfl
    | ok k =>
      simp only
      have e1 : setConstrain (⟨re, im, false, scale⟩ : State ℝ) false =
        (none, ⟨re, im, false, scale⟩) := rfl
      rw [e1]
      simp only
      cases hp : filterSignal k.filt (⟨re, im, false, scale⟩ : State ℝ) with
      | error e => rfl
      | ok p =>
        simp only
        rw [e1]

/-- A signal that constrains its amplitude (all samples are within ±1 then) keeps its samples and
the constraint, but its scale factor is set back to 1 and its imaginary part is **deleted**. -/
theorem C113_constrained_signal (tf2sos : List ℝ → List ℝ → List (List ℝ × List ℝ)) (s : State ℝ)
    (fs : ℕ) (hs : Shaped s) (h5 : s.re.cols ≤ 5) (hfs : 3000 < fs) (hc : Converts tf2sos fs)
    (h : s.constrain = true) (h1 : ∀ r < s.re.rows, ∀ c < s.re.cols, |s.re.val r c| ≤ 1) :
    (lufsIntegrated tf2sos s fs).2 = ⟨s.re, none, true, 1⟩ := by
  obtain ⟨p, -, -, -, h4⟩ := call_ok tf2sos s fs hs h5 hfs hc
  rw [h4, h]
  simp only [setConstrain, if_true]
  rw [setData_ok (⟨s.re, s.im, true, s.scale⟩ : State ℝ) (State.reInput ⟨s.re, s.im, true, s.scale⟩)
    hs.tall (fun h => hs.more h.1) fun _ => ⟨hs.one, h1, fun f hf => absurd hf (by simp [State.reInput])⟩]
  rfl

/-! ### Concrete cases -/

theorem converts_identity (fs : ℕ) (h : 3000 < fs) : Converts (fun b a => [(b, a)]) fs := by
  have hq1 : (2 : ℝ) ^ (0.5 : ℝ) / 2 = √2 / 2 := by
    rw [Real.sqrt_eq_rpow]; norm_num
  have h1 := (C34_stable .highshelf fs 1500 4 (√2 / 2) (inside_1500 h) (by positivity)).1
  have h2 := (C34_stable .highpass fs 38.1 0 (0.5) (inside_38 h) (by norm_num)).1
  constructor
  · refine ⟨by simp [Filt.sections, biquadFilter, Filt.H], ?_⟩
    intro p hp
    simp only [Filt.sections, biquadFilter, List.mem_singleton] at hp
    subst hp
    rw [hq1]
    simpa using h1
  · refine ⟨by simp [Filt.sections, biquadFilter, Filt.H], ?_⟩
    intro p hp
    simp only [Filt.sections, biquadFilter, List.mem_singleton] at hp
    subst hp
    simpa using h2

/-- One second with an impulse at the beginning. -/
def click (a : ℝ) : State ℝ := ⟨⟨48000, 2, fun r c => if r = 0 ∧ c = 0 then a else 0⟩, none, false, 1⟩

theorem click_shaped (a : ℝ) : Shaped (click a) :=
  ⟨by simp [click], by simp [click], by simp [click]⟩

theorem click_long (a : ℝ) : gateLength 48000 ≤ (click a).re.rows := by
  rw [gateLength_eq]
  simp [click, blockLength]

/-- A loud click has a loudness. -/
theorem click_loud : ∃ a : ℝ, ∃ v ∈ energies (click a) 48000, v ≠ 0 ∧ -70 < lufs v := by
  have hin1 := inside_1500 (fs := 48000) (by norm_num)
  have hin2 := inside_38 (fs := 48000) (by norm_num)
  set c1 := biquad .highshelf (48000 : ℕ) 1500 4 (√2 / 2) with hc1
  set c2 := biquad .highpass (48000 : ℕ) 38.1 0 (1 / 2) with hc2
  have ha1 : c1.a0 ≠ 0 := (C34_stable .highshelf _ 1500 4 (√2 / 2) hin1 (by positivity)).1
  have ha2 : c2.a0 ≠ 0 := (C34_stable .highpass _ 38.1 0 (1 / 2) hin2 (by norm_num)).1
  have hb1 : c1.b0 ≠ 0 := by
    have hs := sn_pos hin1
    obtain ⟨hcl, hcu⟩ := cs_bounds hin1
    have hA := gainFactor_pos .highshelf 4
    rw [hc1]
    simp only [biquad, branch]
    set A := gainFactor .highshelf 4
    set cs := Real.cos (omega ((48000 : ℕ) : ℝ) 1500)
    have : 0 < 2 * √A * (Real.sin (omega ((48000 : ℕ) : ℝ) 1500) / (2 * (√2 / 2))) := by positivity
    have h3 : 0 < A * (1 + cs) + (1 - cs) := by
      have := mul_pos hA (show 0 < 1 + cs by linarith)
      linarith
    refine (mul_pos hA ?_).ne'
    nlinarith
  have hb2 : c2.b0 ≠ 0 := by
    obtain ⟨hcl, hcu⟩ := cs_bounds hin2
    have hA := gainFactor_pos .highpass 0
    rw [hc2]
    simp only [biquad, branch]
    refine (mul_pos ?_ hA).ne'
    linarith
  set h0 := c1.b0 / c1.a0 * (c2.b0 / c2.a0) with hh0
  have hh0' : h0 ≠ 0 := mul_ne_zero (div_ne_zero hb1 ha1) (div_ne_zero hb2 ha2)
  have hk : ∀ a, kWeighted (click a) 48000 0 0 = h0 * a := by
    intro a
    unfold kWeighted
    rw [← hc1, ← hc2, PowerSeries.coeff_zero_eq_constantCoeff_apply, map_mul, map_mul]
    have hsec : ∀ c : Coeffs, PowerSeries.constantCoeff (sectionSeries c) = c.b0 / c.a0 := by
      intro c
      unfold sectionSeries ratio
      rw [map_mul, PowerSeries.constantCoeff_inv, ← PowerSeries.coeff_zero_eq_constantCoeff_apply,
        ← PowerSeries.coeff_zero_eq_constantCoeff_apply, zseries_coeff, zseries_coeff]
      simp [div_eq_mul_inv]
    have hz : PowerSeries.constantCoeff (chanZ (click a) 0) = a := by
      rw [← PowerSeries.coeff_zero_eq_constantCoeff_apply]
      unfold chanZ
      rw [zseries_coeff, getD_map_range, if_pos (by simp [click])]
      simp [State.sample, click]
    rw [hsec, hsec, hz]
  have hW : gateLength 48000 = 19200 := by rw [gateLength_eq]; rfl
  have hS : gateStep 48000 = 4800 := by rw [gateStep_eq]; rfl
  refine ⟨√19200 / h0, energy (click (√19200 / h0)) 48000 0, ?_, ?_⟩
  · refine List.mem_map.mpr ⟨0, List.mem_filter.mpr ⟨?_, ?_⟩, rfl⟩
    · exact List.mem_range.mpr (by simp [click])
    · rw [hW, hS]
      simp [click]
  · have h1 : 1 ≤ energy (click (√19200 / h0)) 48000 0 := by
      unfold energy
      have hnn : ∀ c, 0 ≤ weight c * ((∑ i ∈ Finset.range (gateLength 48000),
          kWeighted (click (√19200 / h0)) 48000 c (0 * gateStep 48000 + i) ^ 2) / gateLength 48000) :=
        fun c => mul_nonneg (weight_pos c).le
          (div_nonneg (Finset.sum_nonneg fun i _ => sq_nonneg _) (Nat.cast_nonneg _))
      refine le_trans ?_ (Finset.single_le_sum (fun c _ => hnn c)
        (Finset.mem_range.mpr (show 0 < (click (√19200 / h0)).re.cols by simp [click])))
      have hw : weight 0 = 1 := by simp [weight]
      rw [hw, one_mul, hW, le_div_iff₀ (by norm_num)]
      refine le_trans ?_ (Finset.single_le_sum (fun i _ => sq_nonneg _)
        (Finset.mem_range.mpr (show 0 < 19200 by norm_num)))
      rw [zero_mul, zero_add, hk, mul_div_cancel₀ _ hh0', Real.sq_sqrt (by norm_num)]
      norm_num
    refine ⟨by linarith, ?_⟩
    unfold lufs
    have := Real.logb_nonneg (b := 10) (by norm_num) h1
    linarith

/-- The hypotheses of the theorems above are met. -/
example : ∃ a L : ℝ, (lufsIntegrated (fun b a => [(b, a)]) (click a) 48000).1 =
    .ok (some (L : WithBot ℝ)) ∧ -70 < L := by
  obtain ⟨a, ha⟩ := click_loud
  obtain ⟨L, h1, h2, -⟩ := (C113_bounds _ (click a) 48000 (click_shaped a) (by simp [click])
    (by norm_num) (converts_identity 48000 (by norm_num)) (click_long a)).2 ha
  exact ⟨a, L, h1, h2⟩

/-- Exchanging left and right is such a permutation. -/
example (a : ℝ) : (∀ c, Equiv.swap 0 1 c < (click a).re.cols ↔ c < (click a).re.cols) ∧
    ∀ c < (click a).re.cols, (c < 3 ↔ Equiv.swap 0 1 c < 3) := by
  have h2 : (click a).re.cols = 2 := rfl
  rw [h2]
  refine ⟨fun c => ?_, fun c hc => ?_⟩
  · by_cases h0 : c = 0
    · subst h0; simp
    · by_cases h1 : c = 1
      · subst h1; simp
      · rw [Equiv.swap_apply_of_ne_of_ne h0 h1]
  · by_cases h0 : c = 0
    · subst h0; simp
    · have : c = 1 := by omega
      subst this; simp

/-- The other shapes: one block, a few samples less, and almost nothing. -/
example : gateLength 48000 = 19200 ∧ gateStep 48000 = 4800 := by
  rw [gateStep_eq, gateLength_eq]
  exact ⟨rfl, rfl⟩

end Verif.Loudness
