import Verif.Lemmas.AdaptiveReverb

/-!
# C129: the adaptive reverberation time

"The decay time is taken from the straightest part of the decay curve that begins at -5 dB, or
where the early and the late decay meet; the correlation tells how straight it is."
-/

namespace Verif.Room

open Finset

/-- The samples whose level lies between two levels: not above `hi`, not below `lo` (the first
sample at `hi` exactly is left out). -/
def InRange (edc : ℕ → ℝ) (hi lo : ℝ) (i : ℕ) : Prop := edc i < hi ∧ lo ≤ edc i

theorem mem_levels (L : ℕ) (edc : ℕ → ℝ) (hmono : ∀ i j, i ≤ j → j < L → edc j ≤ edc i)
    (hi lo : ℝ) (i : ℕ) (hiL : i < L) :
    i ∈ Ico (levelIndex L edc hi) (levelIndex L edc lo) ↔ InRange edc hi lo i := by
  have h1 := lt_searchsorted L edc hmono hi i hiL
  have h2 := lt_searchsorted L edc hmono lo i hiL
  rw [mem_Ico]
  unfold InRange levelIndex
  rw [h2]
  constructor
  · rintro ⟨h3, h4⟩
    exact ⟨not_le.mp fun h => absurd (h1.mpr h) (by omega), h4⟩
  · rintro ⟨h3, h4⟩
    exact ⟨not_lt.mp fun h => absurd (h1.mp h) (by linarith), h4⟩

/-- What is returned: there is a start level and an end level 20 to 59 dB below it such that the
time is `60 / |slope|` of the line fitted between them, the correlation belongs to the same
samples, and no other end level of the list has a lower correlation. -/
theorem C129_best (fs L : ℕ) (edc : ℕ → ℝ) (T r : ℝ) (h : adaptive fs L edc = some (T, r)) :
    ∃ edt t30 start stop a b,
      decayLine L (timeVector fs L) edc 0 (-10) = some edt ∧
      decayLine L (timeVector fs L) edc (-5) (-35) = some t30 ∧
      startLevel edt t30 = some start ∧
      (∃ k : ℕ, k < 40 ∧ stop = start - 20 - k) ∧
      decayLine L (timeVector fs L) edc start stop = some (a, b) ∧ a ≠ 0 ∧ T = 60 / |a| ∧
      decayCorr L (timeVector fs L) edc start stop = some r ∧
      ∀ k : ℕ, k < 40 → ∃ q, decayCorr L (timeVector fs L) edc start (start - 20 - k) = some q ∧
        r ≤ q := by
  unfold adaptive optimalTime at h
  cases h1 : decayLine L (timeVector fs L) edc 0 (-10) with
  | none => rw [h1] at h; cases h
  | some edt =>
    cases h2 : decayLine L (timeVector fs L) edc (-5) (-35) with
    | none => rw [h1, h2] at h; cases h
    | some t30 =>
      cases h3 : startLevel edt t30 with
      | none => simp [h1, h2, h3] at h
      | some start =>
        cases h4 : bestEnd L (timeVector fs L) edc start with
        | none => simp [h1, h2, h3, h4] at h
        | some p =>
          obtain ⟨stop, q⟩ := p
          cases h5 : decayLine L (timeVector fs L) edc start stop with
          | none => simp [h1, h2, h3, h4, h5] at h
          | some ab =>
            obtain ⟨a, b⟩ := ab
            simp only [h1, h2, h3, h4, h5, Option.bind_eq_bind, Option.bind_some] at h
            split at h
            · cases h
            · rename_i ha
              cases h
              obtain ⟨hk, hr, hall⟩ := bestEnd_some _ _ _ _ _ _ h4
              exact ⟨edt, t30, start, stop, a, b, rfl, rfl, h3, hk, h5, ha, rfl, hr, hall⟩

theorem timeVector_mono (fs L : ℕ) (i j : ℕ) (h : i ≤ j) : timeVector fs L i ≤ timeVector fs L j := by
  unfold timeVector
  have : (i : ℝ) ≤ j := by exact_mod_cast h
  gcongr

/-- The time is positive; the correlation lies between -1 and 0 for every curve that never
rises. -/
theorem C129_correlation (fs L : ℕ) (edc : ℕ → ℝ)
    (hmono : ∀ i j, i ≤ j → j < L → edc j ≤ edc i) (T r : ℝ)
    (h : adaptive fs L edc = some (T, r)) : 0 < T ∧ -1 ≤ r ∧ r ≤ 0 := by
  obtain ⟨edt, t30, start, stop, a, b, -, -, -, -, -, ha, rfl, hr, -⟩ := C129_best fs L edc T r h
  refine ⟨div_pos (by norm_num) (abs_pos.mpr ha), (abs_pearson_le _ _ _ _ _ hr).1, ?_⟩
  refine pearson_nonpos _ _ _ _ _ hr (timeVector_mono fs L) fun i j _ hij hj => hmono i j hij ?_
  unfold levelIndex at hj
  omega

/-- A correlation of -1 is the sign of a straight decay: the samples between the two levels lie
on one falling line, and the time is what this line needs for 60 dB. -/
theorem C129_perfect (fs L : ℕ) (edc : ℕ → ℝ)
    (hmono : ∀ i j, i ≤ j → j < L → edc j ≤ edc i) (T : ℝ)
    (h : adaptive fs L edc = some (T, -1)) :
    ∃ start a b, 0 < a ∧ T = 60 / a ∧ ∃ stop ≤ start - 20, ∀ i < L, InRange edc start stop i →
      edc i = -a * timeVector fs L i + b := by
  obtain ⟨edt, t30, start, stop, a, b, -, -, -, ⟨k, -, hk⟩, hl, ha, rfl, hr, -⟩ :=
    C129_best fs L edc T (-1) h
  obtain ⟨a', b', ha', hline⟩ := line_of_pearson _ _ _ _ hr
  obtain ⟨hn, hsp, -, -⟩ := pearson_some _ _ _ _ _ hr
  have hne : ∃ i ∈ Ico (levelIndex L edc start) (levelIndex L edc stop),
      ∃ j ∈ Ico (levelIndex L edc start) (levelIndex L edc stop),
        timeVector fs L i ≠ timeVector fs L j := by
    by_contra hall
    push Not at hall
    have hmem : levelIndex L edc start ∈ Ico (levelIndex L edc start) (levelIndex L edc stop) :=
      mem_Ico.mpr ⟨le_refl _, by omega⟩
    have : spread (levelIndex L edc start) (levelIndex L edc stop) (timeVector fs L) = 0 := by
      have hm : mean (levelIndex L edc start) (levelIndex L edc stop) (timeVector fs L) =
          0 * mean (levelIndex L edc start) (levelIndex L edc stop) (timeVector fs L) +
            timeVector fs L (levelIndex L edc start) := by
        rw [← mean_affine _ _ (by omega)]
        exact mean_congr _ _ _ _ fun i hi => by rw [hall i hi _ hmem]; ring
      unfold spread
      refine sum_eq_zero fun i hi => ?_
      rw [hm, hall i hi _ hmem]
      ring
    linarith
  obtain ⟨i, hi, j, hj, hij⟩ := hne
  have hfit := (line_fit _ _ _ _ a' b' ha' hline i j hi hj hij).1
  have hab : (a, b) = (a', b') := by
    have : decayLine L (timeVector fs L) edc start stop = some (a', b') := hfit
    rw [hl] at this
    exact Option.some.inj this
  cases hab
  refine ⟨start, -a, b, by linarith, by rw [abs_of_neg ha'], stop, by rw [hk]; linarith [Nat.cast_nonneg (α := ℝ) k], fun i hi hr => ?_⟩
  rw [neg_neg]
  exact hline i ((mem_levels L edc hmono start stop i hi).mpr hr)

/-- A straight decay by `D` dB per second: the fit is perfect, and the time is `60 / D` times
`L / (L - 1)` where `L` is the length of the curve. -/
theorem C129_straight_partial (fs L : ℕ) (hfs : 0 < fs) (D : ℝ) (hD : 0 < D) (k : ℕ)
    (hk : k + 1 < L) (hslow : D * 2 / fs ≤ 10) (hk1 : D * (k / fs) > 5)
    (hk2 : D * ((k + 1 : ℕ) / fs) ≤ 25) :
    adaptive fs L (fun n => -D * (n / fs)) = some (60 / D * (L / (L - 1)), -1) := by
  have hfs' : (0 : ℝ) < fs := by exact_mod_cast hfs
  have hk0 : 0 < k := by
    rcases Nat.eq_zero_or_pos k with rfl | h
    · simp at hk1
      linarith
    · exact h
  have hL : (1 : ℝ) < L := by exact_mod_cast (show 1 < L by omega)
  have hL1 : (0 : ℝ) < L - 1 := by linarith
  have hsub : ((L - 1 : ℕ) : ℝ) = L - 1 := by
    rw [Nat.cast_sub (by omega)]
    simp
  set edc : ℕ → ℝ := fun n => -D * (n / fs) with hedc
  set t := timeVector fs L with htv
  have hmono : ∀ i j, i ≤ j → j < L → edc j ≤ edc i := by
    intro i j hij _
    have : (i : ℝ) / fs ≤ j / fs := by
      have : (i : ℝ) ≤ j := by exact_mod_cast hij
      gcongr
    simp only [hedc]
    nlinarith
  set a := -(D * ((L - 1) / L)) with ha
  have ha0 : a < 0 := by
    rw [ha]
    have : 0 < D * ((L - 1 : ℝ) / L) := by positivity
    linarith
  have hline : ∀ n, edc n = a * t n + 0 := by
    intro n
    simp only [hedc, ha, htv]
    unfold timeVector
    rw [hsub]
    field_simp
    ring
  have hinj : ∀ n : ℕ, t n ≠ t (n + 1) := by
    intro n
    simp only [htv]
    unfold timeVector
    have hstep : (0 : ℝ) < ((L : ℝ) / fs) / ((L - 1 : ℕ) : ℝ) := by
      rw [hsub]
      positivity
    push_cast
    intro h
    nlinarith
  have key : ∀ hi lo : ℝ, ∀ n : ℕ, n + 1 < L → InRange edc hi lo n → InRange edc hi lo (n + 1) →
      decayLine L t edc hi lo = some (a, 0) ∧ decayCorr L t edc hi lo = some (-1) := by
    intro hi lo n hn h1 h2
    exact line_fit _ _ t edc a 0 ha0 (fun i _ => hline i) n (n + 1)
      ((mem_levels L edc hmono hi lo n (by omega)).mpr h1)
      ((mem_levels L edc hmono hi lo (n + 1) hn).mpr h2) (hinj n)
  have hek : edc k < -5 := by simp only [hedc]; linarith
  have hek1 : -25 ≤ edc (k + 1) := by simp only [hedc]; linarith
  have hstep : edc (k + 1) ≤ edc k := hmono k (k + 1) (by omega) hk
  have h1 : edc 1 < 0 := by
    simp only [hedc]
    have : 0 < D * (((1 : ℕ) : ℝ) / fs) := by positivity
    linarith
  have h2 : -10 ≤ edc 2 := by
    simp only [hedc]
    have : D * (((2 : ℕ) : ℝ) / fs) = D * 2 / fs := by push_cast; ring
    linarith
  have hstep' : edc 2 ≤ edc 1 := hmono 1 2 (by omega) (by omega)
  have hedt := (key 0 (-10) 1 (by omega) ⟨h1, by linarith⟩ ⟨by linarith, h2⟩).1
  have ht30 := (key (-5) (-35) k hk ⟨hek, by linarith⟩ ⟨by linarith, by linarith⟩).1
  have hcorr : ∀ j : ℕ, j < 40 → decayCorr L t edc (-5) (-5 - 20 - j) = some (-1) := by
    intro j _
    have : (0 : ℝ) ≤ j := Nat.cast_nonneg j
    exact (key (-5) (-5 - 20 - j) k hk ⟨hek, by linarith⟩ ⟨by linarith, by linarith⟩).2
  have hbest := bestEnd_first L t edc (-5) (fun _ => -1) hcorr (fun _ _ => le_refl _)
  have hfinal := (key (-5) (-5 - 20) k hk ⟨hek, by linarith⟩ ⟨by linarith, by linarith⟩).1
  have hstart : startLevel (a, 0) (a, 0) = some (-5) := by
    unfold startLevel
    rw [if_neg (by simp [ha0.ne]), if_neg]
    simp only
    have h3 : 0 < 60 / -a := div_pos (by norm_num) (by linarith)
    have h4 : -6 * 10 / a = 60 / -a := by rw [div_neg]; ring
    have h5 : -60 / a = 60 / -a := by rw [div_neg]; ring
    rw [h4, h5]
    linarith
  unfold adaptive optimalTime
  rw [← htv, hedt, ht30]
  simp only [Option.bind_eq_bind, Option.bind_some, hstart, hbest, hfinal]
  rw [if_neg ha0.ne, abs_of_neg ha0, ha, neg_neg]
  congr 2
  field_simp

/-- So the adaptive reverberation time is too long for every straight decay, although the
correlation tells that the fit is perfect. -/
theorem C129_too_long_wrong (fs L : ℕ) (hfs : 0 < fs) (D : ℝ) (hD : 0 < D) (k : ℕ)
    (hk : k + 1 < L) (hslow : D * 2 / fs ≤ 10) (hk1 : D * (k / fs) > 5)
    (hk2 : D * ((k + 1 : ℕ) / fs) ≤ 25) :
    ∃ T, adaptive fs L (fun n => -D * (n / fs)) = some (T, -1) ∧ 60 / D < T := by
  refine ⟨_, C129_straight_partial fs L hfs D hD k hk hslow hk1 hk2, ?_⟩
  have hL : (1 : ℝ) < L := by exact_mod_cast (show 1 < L by omega)
  refine lt_mul_of_one_lt_right (div_pos (by norm_num) hD) ?_
  rw [one_lt_div (by linarith)]
  linarith

/-- 60 dB per second at 100 samples per second. -/
example : adaptive 100 200 (fun n => -60 * (n / (100 : ℕ))) = 
    some ((60 : ℝ) / 60 * (((200 : ℕ) : ℝ) / (((200 : ℕ) : ℝ) - 1)), -1) :=
  C129_straight_partial 100 200 (by norm_num) 60 (by norm_num) 9 (by norm_num) (by norm_num)
    (by norm_num) (by norm_num)

/-! ### The start of the fit -/

/-- If the early decay is more than ten times faster than the late one, the fit starts at the
level at which both lines have the same value at the same time. -/
theorem C129_start_intersection (edt t30 : ℝ × ℝ) (h1 : edt.1 < 0) (h2 : t30.1 < 0)
    (h : |t30.1| * 10 < |edt.1|) :
    ∃ start x, startLevel edt t30 = some start ∧ start = edt.1 * x + edt.2 ∧
      start = t30.1 * x + t30.2 := by
  rw [abs_of_neg h1, abs_of_neg h2] at h
  have hne : t30.1 - edt.1 ≠ 0 := by
    intro h0
    have : t30.1 = edt.1 := by linarith
    rw [this] at h
    linarith
  have hc : (-6 * 10 / edt.1) * 10 < -60 / t30.1 := by
    have e1 : (-6 * 10 / edt.1) * 10 = 600 / -edt.1 := by rw [div_neg]; ring
    have e2 : -60 / t30.1 = 60 / -t30.1 := by rw [div_neg]; ring
    rw [e1, e2, div_lt_div_iff₀ (by linarith) (by linarith)]
    linarith
  refine ⟨edt.1 * ((edt.2 - t30.2) / (t30.1 - edt.1)) + edt.2,
    (edt.2 - t30.2) / (t30.1 - edt.1), ?_, rfl, ?_⟩
  · unfold startLevel
    rw [if_neg (by simp [h1.ne, h2.ne]), if_pos hc, if_neg hne]
  · field_simp
    ring

/-- Otherwise it starts at -5 dB. -/
theorem C129_start_fixed (edt t30 : ℝ × ℝ) (h1 : edt.1 < 0) (h2 : t30.1 < 0)
    (h : |edt.1| ≤ |t30.1| * 10) : startLevel edt t30 = some (-5) := by
  rw [abs_of_neg h1, abs_of_neg h2] at h
  have hc : ¬ (-6 * 10 / edt.1) * 10 < -60 / t30.1 := by
    have e1 : (-6 * 10 / edt.1) * 10 = 600 / -edt.1 := by rw [div_neg]; ring
    have e2 : -60 / t30.1 = 60 / -t30.1 := by rw [div_neg]; ring
    rw [e1, e2, not_lt, div_le_div_iff₀ (by linarith) (by linarith)]
    linarith
  unfold startLevel
  rw [if_neg (by simp [h1.ne, h2.ne]), if_neg hc]

example : ∃ start x, startLevel (-600, 0) (-30, -20) = some start ∧ start = -600 * x + 0 ∧
    start = -30 * x + -20 :=
  C129_start_intersection (-600, 0) (-30, -20) (by norm_num) (by norm_num) (by norm_num)

/-- A curve that ends less than 20 dB below the start is not rejected: the whole rest of the
curve is used. -/
theorem C129_short_curve (L : ℕ) (t edc : ℕ → ℝ) (start stop r : ℝ)
    (hshort : ∀ i < L, start - 20 ≤ edc i) (h : bestEnd L t edc start = some (stop, r)) :
    levelIndex L edc stop = L ∧ decayCorr L t edc start stop =
      pearson (levelIndex L edc start) L t edc := by
  obtain ⟨⟨k, -, hk⟩, -, -⟩ := bestEnd_some _ _ _ _ _ _ h
  have hi : levelIndex L edc stop = L := by
    classical
    have : searchsorted L edc stop = 0 := by
      unfold searchsorted
      rw [card_eq_zero, filter_eq_empty_iff]
      intro i hi
      have := hshort i (mem_range.mp hi)
      rw [hk]
      have h0 : (0 : ℝ) ≤ k := Nat.cast_nonneg k
      linarith
    unfold levelIndex
    rw [this]
    omega
  refine ⟨hi, ?_⟩
  unfold decayCorr
  rw [hi]

/-! ### Sampling rate -/

theorem mean_mul (i1 i2 : ℕ) (s : ℝ) (t : ℕ → ℝ) :
    mean i1 i2 (fun i => s * t i) = s * mean i1 i2 t := by
  unfold mean
  rw [← mul_sum, mul_div_assoc]

theorem spread_mul (i1 i2 : ℕ) (s : ℝ) (t : ℕ → ℝ) :
    spread i1 i2 (fun i => s * t i) = s ^ 2 * spread i1 i2 t := by
  unfold spread
  rw [mean_mul, mul_sum]
  exact sum_congr rfl fun i _ => by ring

theorem coSpread_mul (i1 i2 : ℕ) (s : ℝ) (t y : ℕ → ℝ) :
    coSpread i1 i2 (fun i => s * t i) y = s * coSpread i1 i2 t y := by
  unfold coSpread
  rw [mean_mul, mul_sum]
  exact sum_congr rfl fun i _ => by ring

theorem pearson_mul (i1 i2 : ℕ) (s : ℝ) (hs : 0 < s) (t y : ℕ → ℝ) :
    pearson i1 i2 (fun i => s * t i) y = pearson i1 i2 t y := by
  have h1 : ∀ t : ℕ → ℝ, pearson i1 i2 t y =
      if i2 < i1 + 2 ∨ spread i1 i2 t = 0 ∨ spread i1 i2 y = 0 then none
      else some (coSpread i1 i2 t y / (Real.sqrt (spread i1 i2 t) * Real.sqrt (spread i1 i2 y))) :=
    fun _ => rfl
  rw [h1, h1, spread_mul, coSpread_mul]
  have h2 : s ^ 2 * spread i1 i2 t = 0 ↔ spread i1 i2 t = 0 := by
    simp [hs.ne']
  simp only [h2]
  split
  · rfl
  · congr 1
    rw [Real.sqrt_mul (sq_nonneg s), Real.sqrt_sq hs.le, mul_assoc, mul_div_mul_left _ _ hs.ne']

theorem polyfitLine_mul (i1 i2 : ℕ) (s : ℝ) (hs : 0 < s) (t y : ℕ → ℝ) :
    polyfitLine i1 i2 (fun i => s * t i) y =
      (polyfitLine i1 i2 t y).map fun p => (p.1 / s, p.2) := by
  have h1 : ∀ t : ℕ → ℝ, polyfitSlope i1 i2 t y =
      if spread i1 i2 t = 0 then none else some (coSpread i1 i2 t y / spread i1 i2 t) :=
    fun _ => rfl
  unfold polyfitLine
  rw [h1, h1, spread_mul, coSpread_mul, mean_mul]
  have h2 : s ^ 2 * spread i1 i2 t = 0 ↔ spread i1 i2 t = 0 := by
    simp [hs.ne']
  simp only [h2]
  split
  · rfl
  · rename_i h3
    simp only [Option.map_some, Option.some.injEq, Prod.mk.injEq]
    constructor
    · field_simp
    · field_simp

theorem startLevel_mul (s : ℝ) (hs : 0 < s) (p q : ℝ × ℝ) :
    startLevel (p.1 / s, p.2) (q.1 / s, q.2) = startLevel p q := by
  have e1 : (-6 * 10 / (p.1 / s)) * 10 = s * ((-6 * 10 / p.1) * 10) := by
    rw [div_div_eq_mul_div]
    ring
  have e2 : -60 / (q.1 / s) = s * (-60 / q.1) := by
    rw [div_div_eq_mul_div]
    ring
  have e3 : q.1 / s - p.1 / s = 0 ↔ q.1 - p.1 = 0 := by
    rw [← sub_div, div_eq_zero_iff]
    simp [hs.ne']
  unfold startLevel
  simp only [div_eq_zero_iff, hs.ne', or_false, e1, e2, mul_lt_mul_iff_right₀ hs, e3]
  split
  · rfl
  · split
    · split
      · rfl
      · rename_i h
        congr 2
        rw [← sub_div, div_div_eq_mul_div]
        field_simp
    · rfl

theorem optimalTime_mul (L : ℕ) (s : ℝ) (hs : 0 < s) (t edc : ℕ → ℝ) :
    optimalTime L (fun i => s * t i) edc =
      (optimalTime L t edc).map fun p => (s * p.1, p.2) := by
  have hl : ∀ u v, decayLine L (fun i => s * t i) edc u v =
      (decayLine L t edc u v).map fun p => (p.1 / s, p.2) := fun u v => polyfitLine_mul _ _ s hs t edc
  have hb : ∀ u, bestEnd L (fun i => s * t i) edc u = bestEnd L t edc u := by
    intro u
    have : ∀ v, decayCorr L (fun i => s * t i) edc u v = decayCorr L t edc u v :=
      fun v => pearson_mul _ _ s hs t edc
    unfold bestEnd
    simp only [this]
  unfold optimalTime
  rw [hl, hl]
  cases decayLine L t edc 0 (-10) with
  | none => rfl
  | some p =>
    cases decayLine L t edc (-5) (-35) with
    | none => rfl
    | some q =>
      simp only [Option.map_some, Option.bind_eq_bind, Option.bind_some, startLevel_mul s hs p q]
      cases startLevel p q with
      | none => rfl
      | some start =>
        simp only [Option.bind_some, hb]
        cases bestEnd L t edc start with
        | none => rfl
        | some e =>
          obtain ⟨stop, r⟩ := e
          simp only [Option.bind_some, hl]
          cases decayLine L t edc start stop with
          | none => rfl
          | some ab =>
            obtain ⟨a, b⟩ := ab
            simp only [Option.map_some, Option.bind_some, div_eq_zero_iff, hs.ne', or_false]
            split
            · rfl
            · simp only [Option.map_some]
              congr 2
              rw [abs_div, abs_of_pos hs]
              field_simp

/-- The same decay curve at `c` times the sampling rate gives a reverberation time shorter by the
factor `c` and the same correlation. -/
theorem C129_sampling_rate (c fs L : ℕ) (hc : 0 < c) (edc : ℕ → ℝ) :
    adaptive (c * fs) L edc = (adaptive fs L edc).map fun p => (p.1 / (c : ℝ), p.2) := by
  have hc' : (0 : ℝ) < c := by exact_mod_cast hc
  have ht : timeVector (c * fs) L = fun i => (1 / (c : ℝ)) * timeVector fs L i := by
    funext i
    unfold timeVector
    push_cast
    rw [div_mul_eq_div_div_swap]
    ring
  unfold adaptive
  rw [ht, optimalTime_mul L _ (by positivity)]
  congr 1
  funext p
  rw [one_div_mul_eq_div]

/-- The levels that end the fit lie 20 to 59 dB below the start: neither 10 dB nor 60 dB, as
documented, are tried. -/
theorem C129_end_levels_wrong (start : ℝ) :
    (endLevels start).length = 40 ∧ start - 10 ∉ endLevels start ∧ start - 60 ∉ endLevels start := by
  unfold endLevels
  refine ⟨by simp, fun h => ?_, fun h => ?_⟩
  · obtain ⟨k, -, e⟩ := List.mem_map.mp h
    have : (0 : ℝ) ≤ k := Nat.cast_nonneg k
    linarith
  · obtain ⟨k, hk, e⟩ := List.mem_map.mp h
    have hk := List.mem_range.mp hk
    have : (k : ℝ) = 40 := by linarith
    have : k = 40 := by exact_mod_cast this
    omega

end Verif.Room
