import Verif.Model.DecayCurve
import Verif.Props.C44
import Verif.Props.C62
import Mathlib.Analysis.Complex.ExponentialBounds

/-!
# C123: the energy decay curve
-/

namespace Verif.DecayCurve

open Finset Verif.Room

/-! ### Specification -/

/-- Energy of the powers `p 0, ..., p (N-1)` after the sample `n`. -/
noncomputable def energyAfter (N : ℕ) (p : ℕ → ℝ) (n : ℕ) : ℝ := ∑ i ∈ Ico (n + 1) N, p i

/-- Level of an energy; energies below the smallest normal number count as that number. -/
noncomputable def level (e : ℝ) : ℝ := 10 * Real.logb 10 (max e Level.tiny)

/-- Powers of the response from its start to its end. -/
noncomputable def powers (x : List ℝ) (stop : ℕ) : List ℝ :=
  ((x.take stop).drop (irStart (-20) x)).map (· ^ 2)

/-- A list is the curve of the energies `e`. -/
def IsCurve (l : List ℝ) (e : ℕ → ℝ) : Prop :=
  0 < l.length ∧ ∀ n < l.length, l.getD n 0 = level (e n) - level (e 0)

/-! ### Lemmas -/

theorem tiny_pos : 0 < Level.tiny := by
  unfold Level.tiny
  positivity

theorem powerDb_of_nonneg (e : ℝ) (h : 0 ≤ e) : powerDb e = level e := by
  unfold powerDb level
  rw [abs_of_nonneg h]

theorem level_mono (a b : ℝ) (h : a ≤ b) : level a ≤ level b := by
  unfold level
  have := tiny_pos
  have h1 : Real.logb 10 (max a Level.tiny) ≤ Real.logb 10 (max b Level.tiny) :=
    Real.logb_le_logb_of_le (by norm_num) (lt_max_of_lt_right this) (max_le_max_right _ h)
  linarith

theorem level_lt (a b : ℝ) (h : a < b) (hb : Level.tiny < b) : level a < level b := by
  unfold level
  have := tiny_pos
  have h1 : Real.logb 10 (max a Level.tiny) < Real.logb 10 (max b Level.tiny) :=
    Real.logb_lt_logb (by norm_num) (lt_max_of_lt_right this) (by rw [max_eq_left hb.le]; exact max_lt h hb)
  linarith

theorem restEnergy_eq (N : ℕ) (p : ℕ → ℝ) (noise e : ℝ) (n : ℕ) (hn : n < N) :
    restEnergy N p noise e n = energyAfter N (fun i => p i - noise) n + e := by
  unfold restEnergy energyAfter
  rw [← sum_range_add_sum_Ico _ (show n + 1 ≤ N by omega)]
  ring

theorem toCurve_ok (L : ℕ) (e : ℕ → ℝ) (l : List ℝ) (h : toCurve L e = .ok l)
    (hpos : ∀ n < L, 0 ≤ e n) : l.length = L ∧ IsCurve l e := by
  unfold toCurve at h
  by_cases hL : L = 0
  · rw [if_pos hL] at h
    cases h
  rw [if_neg hL] at h
  cases h
  refine ⟨by simp, by simp; omega, fun n hn => ?_⟩
  have hn' : n < L := by simpa using hn
  rw [List.getD_eq_getElem _ _ hn]
  simp only [List.getElem_map, List.getElem_range]
  rw [powerDb_of_nonneg _ (hpos n hn'), powerDb_of_nonneg _ (hpos 0 (by omega))]

theorem energyAfter_antitone (N : ℕ) (p : ℕ → ℝ) (hp : ∀ i, 0 ≤ p i) (i j : ℕ) (hij : i ≤ j) :
    energyAfter N p j ≤ energyAfter N p i := by
  unfold energyAfter
  refine sum_le_sum_of_subset_of_nonneg ?_ fun k _ _ => hp k
  intro k hk
  rw [mem_Ico] at hk ⊢
  omega

theorem plain_ok (N : ℕ) (p : ℕ → ℝ) (hp : ∀ i, 0 ≤ p i) (l : List ℝ) (h : plainCurve N p = .ok l) :
    l.length = N * 95 / 100 ∧ IsCurve l (energyAfter N p) := by
  have key : ∀ n < N * 95 / 100, restEnergy N p 0 0 n = energyAfter N p n := by
    intro n hn
    rw [restEnergy_eq N p 0 0 n (by omega)]
    simp
  obtain ⟨h1, h2, h3⟩ := toCurve_ok _ _ l h (fun n hn => by
    rw [key n hn]
    exact sum_nonneg fun i _ => hp i)
  refine ⟨h1, h2, fun n hn => ?_⟩
  rw [h3 n hn, key n (h1 ▸ hn), key 0 (by omega)]

/-! ### The properties -/

/-- What the curve is: the energy after each sample in dB relative to the first value, either plain for
95 % of the samples, or reduced by the noise power and increased by a compensation, as far as this
energy is positive. -/
theorem C123_curve (x : List ℝ) (fs stop : ℕ) (l : List ℝ) (h : decayCurve x fs stop = .ok l) :
    (l.length = (powers x stop).length * 95 / 100 ∧
      IsCurve l (energyAfter (powers x stop).length fun n => (powers x stop).getD n 0)) ∨
    ∃ noise e : ℝ, variance (if stop ≠ x.length then x.drop stop else x.take (irStart (-20) x)) = some noise ∧
      l.length ≤ (powers x stop).length ∧
      (∃ (i0 : ℕ) (p0 p1 : ℝ),
        fitStart fs (powers x stop).length (fun n => (powers x stop).getD n 0) noise = some i0 ∧
        fitLine i0 (powers x stop).length (timeVector fs (powers x stop).length)
          (signalDb fs (powers x stop).length fun n => (powers x stop).getD n 0) = some (p0, p1) ∧
        compensate fs p0 p1 noise = some e) ∧
      IsCurve l (fun n => energyAfter (powers x stop).length
        (fun n => (powers x stop).getD n 0 - noise) n + e) ∧
      ∀ n < l.length, 0 < energyAfter (powers x stop).length
        (fun n => (powers x stop).getD n 0 - noise) n + e := by
  classical
  have hp : ∀ i, 0 ≤ (powers x stop).getD i 0 := by
    intro i
    unfold powers
    by_cases hi : i < (((x.take stop).drop (irStart (-20) x)).map (· ^ 2)).length
    · rw [List.getD_eq_getElem _ _ hi, List.getElem_map]
      exact sq_nonneg _
    · rw [List.getD_eq_default _ _ (not_lt.1 hi)]
  unfold decayCurve at h
  change (if powers x stop = [] then Except.error Err.valueError
    else match (if stop ≠ x.length then variance (x.drop stop)
        else variance (x.take (irStart (-20) x))) with
      | none => .error .indexError
      | some noise => curve fs (powers x stop).length (fun n => (powers x stop).getD n 0) noise) = .ok l at h
  generalize powers x stop = P at *
  by_cases h0 : P = []
  · rw [if_pos h0] at h
    cases h
  rw [if_neg h0] at h
  have hv : (if stop ≠ x.length then variance (x.drop stop) else variance (x.take (irStart (-20) x))) =
      variance (if stop ≠ x.length then x.drop stop else x.take (irStart (-20) x)) := by
    split_ifs <;> rfl
  rw [hv] at h
  cases hvar : variance (if stop ≠ x.length then x.drop stop else x.take (irStart (-20) x)) with
  | none => rw [hvar] at h; cases h
  | some noise =>
    rw [hvar] at h
    simp only at h
    unfold curve at h
    cases h1 : fitStart fs P.length (fun n => P.getD n 0) noise with
    | none => rw [h1] at h; cases h
    | some i0 =>
      rw [h1] at h
      simp only at h
      cases h2 : fitLine i0 P.length (timeVector fs P.length) (signalDb fs P.length fun n => P.getD n 0) with
      | none => rw [h2] at h; cases h
      | some q =>
        obtain ⟨p0, p1⟩ := q
        rw [h2] at h
        simp only at h
        cases h3 : compensate fs p0 p1 noise with
        | none =>
          rw [h3] at h
          exact .inl (plain_ok _ _ hp l h)
        | some e =>
          rw [h3] at h
          simp only at h
          cases h4 : (List.range P.length).find? fun (n : ℕ) =>
              decide (restEnergy P.length (fun n => P.getD n 0) noise e n ≤ 0) with
          | none =>
            rw [h4] at h
            simp only at h
            right
            have hall : ∀ n < P.length, 0 < restEnergy P.length (fun n => P.getD n 0) noise e n := by
              intro n hn
              have := List.find?_eq_none.1 h4 n (List.mem_range.2 hn)
              simpa using this
            obtain ⟨h5, h6, h7⟩ := toCurve_ok _ _ l h fun n hn => (hall n hn).le
            refine ⟨noise, e, rfl, h5.le, ⟨i0, p0, p1, h1, h2, h3⟩, ⟨h6, fun n hn => ?_⟩, fun n hn => ?_⟩
            · rw [h7 n hn, restEnergy_eq _ _ _ _ n (by omega), restEnergy_eq _ _ _ _ 0 (by omega)]
            · rw [← restEnergy_eq _ _ _ _ n (by omega)]
              exact hall n (by omega)
          | some j =>
            rw [h4] at h
            simp only at h
            by_cases hj : j ≤ (3 * fs + 50) / 100
            · rw [if_pos hj] at h
              exact .inl (plain_ok _ _ hp l h)
            · rw [if_neg hj] at h
              right
              have hjN : j < P.length := List.mem_range.1 (List.mem_of_find?_eq_some h4)
              have hall : ∀ n < j, 0 < restEnergy P.length (fun n => P.getD n 0) noise e n := by
                intro n hn
                obtain ⟨-, as, bs, hsplit, hnot⟩ := List.find?_eq_some_iff_append.1 h4
                have hmem : n ∈ as := by
                  have hlen : as.length = j := by
                    have e1 : (List.range P.length)[as.length]? = some j := by
                      rw [hsplit]
                      simp
                    rw [List.getElem?_eq_some_iff] at e1
                    obtain ⟨_, e2⟩ := e1
                    simpa using e2
                  have e3 : (List.range P.length)[n]? = as[n]? := by
                    rw [hsplit, List.getElem?_append_left (by omega)]
                  rw [List.getElem?_range (by omega)] at e3
                  exact List.mem_of_getElem? e3.symm
                simpa using hnot n hmem
              obtain ⟨h5, h6, h7⟩ := toCurve_ok _ _ l h fun n hn => (hall n hn).le
              refine ⟨noise, e, rfl, by omega, ⟨i0, p0, p1, h1, h2, h3⟩, ⟨h6, fun n hn => ?_⟩, fun n hn => ?_⟩
              · rw [h7 n hn, restEnergy_eq _ _ _ _ n (by omega), restEnergy_eq _ _ _ _ 0 (by omega)]
              · rw [← restEnergy_eq _ _ _ _ n (by omega)]
                exact hall n (by omega)

/-- The noise is the variance of the samples. -/
theorem C123_noise (x : List ℝ) (v : ℝ) :
    variance x = some v ↔
      x ≠ [] ∧ x.length * (x.length * v) = x.length * (x.map (· ^ 2)).sum - x.sum ^ 2 := by
  unfold variance
  by_cases h : x = []
  · simp [h]
  rw [if_neg h]
  have hn : (x.length : ℝ) ≠ 0 := by
    simpa using h
  have key : ∀ (c : ℝ) (y : List ℝ), (y.map fun v => (v - c) ^ 2).sum =
      (y.map (· ^ 2)).sum - 2 * c * y.sum + y.length * c ^ 2 := by
    intro c y
    induction y with
    | nil => simp
    | cons a y ih =>
      simp only [List.map_cons, List.sum_cons, ih, List.length_cons]
      push_cast
      ring
  rw [key, Option.some.injEq]
  constructor
  · intro h1
    refine ⟨h, ?_⟩
    rw [← h1]
    field_simp
    ring
  · rintro ⟨-, h1⟩
    have h2 : (x.length : ℝ) * (x.length * v) =
        x.length * ((x.map (· ^ 2)).sum - 2 * (x.sum / x.length) * x.sum + x.length * (x.sum / x.length) ^ 2) := by
      rw [h1]
      field_simp
      ring
    have h3 := mul_left_cancel₀ hn h2
    rw [div_eq_iff hn, ← h3]
    ring

/-- The line is fitted from the first sample on that is more than half of the dynamic range below the
peak, seen from the lowest level. -/
theorem C123_fit_start (fs N : ℕ) (p : ℕ → ℝ) (noise lo hi : ℝ) (h0 : noise ≠ 0)
    (hlo : (∃ m < N, signalDb fs N p m = lo) ∧ ∀ n < N, lo ≤ signalDb fs N p n)
    (hhi : (∃ q < N, p q = hi) ∧ ∀ n < N, p n ≤ hi) (i : ℕ) :
    fitStart fs N p noise = some i ↔
      i < N ∧ signalDb fs N p i < lo + level |hi / noise| / 2 ∧
      ∀ j < i, lo + level |hi / noise| / 2 ≤ signalDb fs N p j := by
  classical
  obtain ⟨⟨m, hm, rfl⟩, hlo⟩ := hlo
  obtain ⟨⟨q, hq, rfl⟩, hhi⟩ := hhi
  have hlev : ∀ x, level |x| = powerDb x := fun x => rfl
  rw [hlev]
  have key : ∀ i, (∃ m < N, (∀ n < N, signalDb fs N p m ≤ signalDb fs N p n) ∧ ∃ q < N,
      (∀ n < N, p n ≤ p q) ∧ powerDb (p q / noise) / 2 + signalDb fs N p m > signalDb fs N p i) ↔
      signalDb fs N p i < signalDb fs N p m + powerDb (p q / noise) / 2 := by
    intro i
    constructor
    · rintro ⟨m', hm', h1, q', hq', h2, h3⟩
      have e1 := le_antisymm (h1 m hm) (hlo m' hm')
      have e2 := le_antisymm (hhi q' hq') (h2 q hq)
      rw [e1, e2] at h3
      linarith
    · intro h
      exact ⟨m, hm, hlo, q, hq, hhi, by linarith⟩
  unfold fitStart
  rw [if_neg h0]
  simp only [key]
  rw [List.find?_range_eq_some]
  simp only [decide_eq_true_eq, List.mem_range, Bool.not_eq_true', decide_eq_false_iff_not, not_lt]
  tauto

/-- The energy after the end is that of an exponential decay from the level `p0` that reaches the noise
after the time `t1` with `p1` dB per second (`p0` is the slope and `p1` the level at time 0 of the fitted
line, see C62).  There is none unless `p1` is negative and the time is positive. -/
theorem C123_compensation (fs : ℕ) (p0 p1 noise e : ℝ) (h0 : 0 < noise)
    (h : compensate fs p0 p1 noise = some e) :
    p1 < 0 ∧ ∃ t1 B : ℝ, 0 < t1 ∧ 10 * Real.logb 10 noise = p0 + p1 * t1 ∧ 10 * Real.logb 10 B = p0 ∧ 0 < B ∧
      noise ≠ B ∧ e * Real.log (noise / B) = -noise * t1 * fs := by
  unfold compensate at h
  rw [if_neg h0.ne'] at h
  by_cases hc : (compensation p0 p1 noise).1 ∨ noise = Level.fromDb p0 false
  · rw [if_pos hc] at h
    cases h
  rw [if_neg hc] at h
  simp only [compensation, ge_iff_le, not_or, not_le] at hc h
  obtain ⟨⟨h1, h2⟩, h3⟩ := hc
  have hB : 0 < Level.fromDb p0 false := by
    unfold Level.fromDb
    positivity
  have hB' : 10 * Real.logb 10 (Level.fromDb p0 false) = p0 := by
    unfold Level.fromDb Level.dbFactor
    rw [Real.logb_rpow (by norm_num) (by norm_num)]
    simp
    ring
  have hlog : Real.log (noise / Level.fromDb p0 false) ≠ 0 := by
    rw [Real.log_ne_zero]
    refine ⟨by positivity, fun h => h3 ?_, fun h => ?_⟩
    · rw [div_eq_one_iff_eq hB.ne'] at h
      exact h
    · have : 0 < noise / Level.fromDb p0 false := by positivity
      linarith
  refine ⟨h1, _, _, h2, ?_, hB', hB, h3, ?_⟩
  · field_simp [h1.ne]
    ring
  · rw [← Option.some.inj h, div_mul_cancel₀ _ h2.ne', Real.exp_log (by positivity)]
    field_simp

/-- The first value is 0 dB. -/
theorem C123_first (x : List ℝ) (fs stop : ℕ) (l : List ℝ) (h : decayCurve x fs stop = .ok l) :
    0 < l.length ∧ l.getD 0 0 = 0 := by
  rcases C123_curve x fs stop l h with ⟨-, h1, h2⟩ | ⟨noise, e, -, -, -, ⟨h1, h2⟩, -⟩
  · exact ⟨h1, by rw [h2 0 h1, sub_self]⟩
  · exact ⟨h1, by rw [h2 0 h1, sub_self]⟩

theorem powers_nonneg (x : List ℝ) (stop i : ℕ) : 0 ≤ (powers x stop).getD i 0 := by
  unfold powers
  by_cases hi : i < (((x.take stop).drop (irStart (-20) x)).map (· ^ 2)).length
  · rw [List.getD_eq_getElem _ _ hi, List.getElem_map]
    exact sq_nonneg _
  · rw [List.getD_eq_default _ _ (not_lt.1 hi)]

/-- Without noise the curve never rises, as `reverb_time` assumes. -/
theorem C123_falls_partial (x : List ℝ) (fs stop : ℕ) (l : List ℝ) (h : decayCurve x fs stop = .ok l)
    (hn : variance (if stop ≠ x.length then x.drop stop else x.take (irStart (-20) x)) = some 0)
    (i j : ℕ) (hij : i ≤ j) (hj : j < l.length) : l.getD j 0 ≤ l.getD i 0 := by
  rcases C123_curve x fs stop l h with ⟨-, h1, h2⟩ | ⟨noise, e, h0, -, -, ⟨h1, h2⟩, -⟩
  · rw [h2 j hj, h2 i (by omega)]
    have := level_mono _ _ (energyAfter_antitone (powers x stop).length _ (powers_nonneg x stop) i j hij)
    linarith
  · rw [hn] at h0
    have e0 : noise = 0 := (Option.some.inj h0).symm
    rw [h2 j hj, h2 i (by omega)]
    have := level_mono _ _ (add_le_add_left (energyAfter_antitone (powers x stop).length
      (fun n => (powers x stop).getD n 0 - noise) (fun n => by rw [e0, sub_zero]; exact powers_nonneg x stop n) i j hij) e)
    linarith

/-- A response that starts with its first sample and is not trimmed has no curve: there are no samples
to take the noise from. -/
theorem C123_start_wrong (x : List ℝ) (fs : ℕ) (hx : x ≠ []) (hs : irStart (-20) x = 0) :
    decayCurve x fs x.length = .error .indexError := by
  unfold decayCurve
  simp only [hs, ne_eq, not_true_eq_false, if_false, List.take_zero, List.take_length, List.drop_zero]
  rw [if_neg (by simpa using hx)]
  simp [variance]

/-! ### A response with noise -/

/-- Noise, then a response with one large sample, multiplied by `g`. -/
noncomputable def noisy (g : ℝ) : List ℝ := [g / 10, -(g / 10), g / 100, g / 2, g / 100]

theorem noisy_start (g : ℝ) (hg : 0 < g) : irStart (-20) (noisy g) = 2 := by
  have h1 : (noisy g).map (fun v => |v|) = [g / 10, g / 10, g / 100, g / 2, g / 100] := by
    have h10 : 0 ≤ g / 10 := by positivity
    have h100 : 0 ≤ g / 100 := by positivity
    have h2 : 0 ≤ g / 2 := by positivity
    simp [noisy, h10, h100, h2]
  have h2 : Level.maxAbs (noisy g) = g / 2 := by
    unfold Level.maxAbs
    rw [h1]
    simp only [List.foldr_cons, List.foldr_nil]
    rw [max_eq_left (by positivity : (0 : ℝ) ≤ g / 100), max_eq_left (by linarith : g / 100 ≤ g / 2),
      max_eq_right (by linarith : g / 100 ≤ g / 2), max_eq_right (by linarith : g / 10 ≤ g / 2),
      max_eq_right (by linarith : g / 10 ≤ g / 2)]
  have h3 : argmaxAbs (noisy g) = 3 := by
    unfold argmaxAbs
    rw [h2, h1]
    rw [List.idxOf_cons_ne _ (by intro h; linarith), List.idxOf_cons_ne _ (by intro h; linarith),
      List.idxOf_cons_ne _ (by intro h; linarith), List.idxOf_cons_self]
  have h4 : threshold (-20) (noisy g) = g / 20 := by
    unfold threshold
    rw [h3]
    have e1 : (noisy g).getD 3 0 = g / 2 := by simp [noisy]
    have e2 : Level.fromDb (-|(-20 : ℝ)|) true = 1 / 10 := by
      unfold Level.fromDb Level.dbFactor
      norm_num
    rw [e1, e2, abs_of_pos (by positivity)]
    ring
  unfold irStart
  rw [h3, h4]
  simp only [descend]
  have e3 : (noisy g).getD (2 + 1) 0 = g / 2 := by simp [noisy]
  have e2 : (noisy g).getD (1 + 1) 0 = g / 100 := by simp [noisy]
  rw [if_neg (by rw [e3, abs_of_pos (by positivity)]; linarith),
    if_pos (by rw [e2, abs_of_pos (by positivity)]; linarith)]

/-- Its powers. -/
noncomputable def noisyPowers (G : ℝ) (n : ℕ) : ℝ := [G / 10000, G / 4, G / 10000].getD n 0

theorem noisy_curve (g : ℝ) (hg : 0 < g) :
    decayCurve (noisy g) 16 5 = curve 16 3 (noisyPowers (g ^ 2)) (g ^ 2 / 100) := by
  unfold decayCurve
  simp only [noisy_start g hg]
  have e1 : ((noisy g).take 5).drop 2 = [g / 100, g / 2, g / 100] := by simp [noisy]
  have e2 : (noisy g).length = 5 := by simp [noisy]
  have e3 : (noisy g).take 2 = [g / 10, -(g / 10)] := by simp [noisy]
  have e4 : variance [g / 10, -(g / 10)] = some (g ^ 2 / 100) := by
    unfold variance
    rw [if_neg (by simp)]
    congr 1
    simp
    ring
  rw [e1, e2, e3, e4]
  simp only [ne_eq, not_true_eq_false, if_false, List.map_cons, List.map_nil, List.length_cons, List.length_nil,
    reduceCtorEq]
  have e5 : (fun n => [(g / 100) ^ 2, (g / 2) ^ 2, (g / 100) ^ 2].getD n 0) = noisyPowers (g ^ 2) := by
    funext n
    unfold noisyPowers
    have : (g / 100) ^ 2 = g ^ 2 / 10000 := by ring
    have h2 : (g / 2) ^ 2 = g ^ 2 / 4 := by ring
    rw [this, h2]
  rw [e5]

theorem noisy_levels (G : ℝ) (hG : 0 < G) :
    signalDb 16 3 (noisyPowers G) 0 = level (G / 10000) ∧
    signalDb 16 3 (noisyPowers G) 0 ≤ signalDb 16 3 (noisyPowers G) 2 ∧
    signalDb 16 3 (noisyPowers G) 2 ≤ signalDb 16 3 (noisyPowers G) 1 ∧
    signalDb 16 3 (noisyPowers G) 1 ≤ level (G / 4) := by
  obtain ⟨f, hf⟩ : ∃ f, f = Smoothing.factorOr 0.02 ((16 : ℕ) : ℝ) := ⟨_, rfl⟩
  have hf01 : 0 < f ∧ f < 1 := by
    rw [hf]
    unfold Smoothing.factorOr Smoothing.emaFactor
    rw [if_pos (by norm_num)]
    have h1 : Real.log (1 - 0.95) < 0 := Real.log_neg (by norm_num) (by norm_num)
    have h2 : Real.exp (Real.log (1 - 0.95) / 0.02 / ((16 : ℕ) : ℝ)) < 1 := by
      rw [Real.exp_lt_one_iff]
      exact div_neg_of_neg_of_pos (div_neg_of_neg_of_pos h1 (by norm_num)) (by norm_num)
    have h3 := Real.exp_pos (Real.log (1 - 0.95) / 0.02 / ((16 : ℕ) : ℝ))
    constructor <;> linarith
  obtain ⟨f0, f1⟩ := hf01
  have hs : ∀ n < 3, signalDb 16 3 (noisyPowers G) n = powerDb (Smoothing.smooth f f (noisyPowers G) n) := by
    intro n hn
    unfold signalDb
    rw [← hf, Smoothing.smoothFilter_eq _ _ _ n hn]
  rw [hs 0 (by norm_num), hs 1 (by norm_num), hs 2 (by norm_num)]
  have s0 : Smoothing.smooth f f (noisyPowers G) 0 = G / 10000 := by
    simp [Smoothing.smooth, noisyPowers]
  have s1 : Smoothing.smooth f f (noisyPowers G) 1 = f * (G / 4) + (1 - f) * (G / 10000) := by
    rw [Smoothing.smooth, s0]
    simp [Smoothing.step, noisyPowers]
  have s2 : Smoothing.smooth f f (noisyPowers G) 2 =
      f * (G / 10000) + (1 - f) * (f * (G / 4) + (1 - f) * (G / 10000)) := by
    rw [Smoothing.smooth, s1]
    simp [Smoothing.step, noisyPowers]
  rw [s0, s1, s2]
  have g1 : G / 10000 ≤ f * (G / 4) + (1 - f) * (G / 10000) := by nlinarith
  have g2 : f * (G / 4) + (1 - f) * (G / 10000) ≤ G / 4 := by nlinarith
  generalize f * (G / 4) + (1 - f) * (G / 10000) = s at *
  have g3 : G / 10000 ≤ f * (G / 10000) + (1 - f) * s := by nlinarith
  have g4 : f * (G / 10000) + (1 - f) * s ≤ s := by nlinarith
  have hp : 0 < G / 10000 := by positivity
  rw [powerDb_of_nonneg _ hp.le, powerDb_of_nonneg _ (by linarith), powerDb_of_nonneg _ (by linarith)]
  exact ⟨rfl, level_mono _ _ g3, level_mono _ _ g4, level_mono _ _ g2⟩

theorem noisy_fitStart (G : ℝ) (hG : 0 < G) : fitStart 16 3 (noisyPowers G) (G / 100) = some 0 := by
  classical
  obtain ⟨h0, h1, h2, -⟩ := noisy_levels G hG
  unfold fitStart
  rw [if_neg (by positivity)]
  rw [show List.range 3 = [0, 1, 2] from rfl, List.find?_cons_of_pos]
  simp only [decide_eq_true_eq]
  refine ⟨0, by norm_num, ?_, 1, by norm_num, ?_, ?_⟩
  · intro n hn
    interval_cases n
    · exact le_refl _
    · exact h1.trans h2
    · exact h1
  · intro n hn
    interval_cases n <;> simp [noisyPowers] <;> linarith
  · have e : noisyPowers G 1 / (G / 100) = 25 := by
      simp only [noisyPowers, List.getD_cons_succ, List.getD_cons_zero]
      field_simp
      norm_num
    have : 0 < powerDb 25 := by
      unfold powerDb
      have : 0 < Real.logb 10 (max |25| Level.tiny) :=
        Real.logb_pos (by norm_num) (lt_max_of_lt_left (by norm_num))
      linarith
    rw [e]
    linarith

theorem three_points (y : ℕ → ℝ) :
    fitLine 0 3 (timeVector 16 3) y = some ((y 2 - y 0) * (16 / 3), (5 * y 0 + 2 * y 1 - y 2) / 6) := by
  unfold fitLine polyfitSlope
  have ht : mean 0 3 (timeVector 16 3) = 3 / 32 := by
    simp [mean, timeVector, Finset.sum_range_succ]
    norm_num
  have hm : mean 0 3 y = (y 0 + y 1 + y 2) / 3 := by
    simp [mean, Finset.sum_range_succ]
  have hd : ∑ i ∈ Ico 0 3, (timeVector 16 3 i - 3 / 32) ^ 2 = 9 / 512 := by
    simp [timeVector, Finset.sum_range_succ]
    norm_num
  have hn : ∑ i ∈ Ico 0 3, (timeVector 16 3 i - 3 / 32) * (y i - (y 0 + y 1 + y 2) / 3) =
      3 / 32 * (y 2 - y 0) := by
    simp [timeVector, Finset.sum_range_succ]
    ring
  simp only [ht, hm, hd, hn]
  rw [if_neg (by norm_num)]
  simp only [Option.map_some, Option.some.injEq, Prod.mk.injEq]
  constructor <;> ring

theorem level_pos (e : ℝ) (h : Level.tiny ≤ e) : level e = 10 * Real.logb 10 e := by
  unfold level
  rw [max_eq_left h]

theorem tiny_lt : Level.tiny < 1 / 10000000000 := by
  unfold Level.tiny
  have : (2 : ℝ) ^ (-1022 : ℤ) ≤ 2 ^ (-40 : ℤ) := zpow_le_zpow_right₀ (by norm_num) (by norm_num)
  refine lt_of_le_of_lt this ?_
  norm_num

theorem log_ten_lt : Real.log 10 < 2.3105 := by
  have h1 : 3 * Real.log 10 ≤ 10 * Real.log 2 := by
    have : Real.log ((10 : ℝ) ^ 3) ≤ Real.log ((2 : ℝ) ^ 10) := Real.log_le_log (by norm_num) (by norm_num)
    simpa [Real.log_pow] using this
  have := Real.log_two_lt_d9
  linarith

theorem logb_ten_pow (k : ℤ) : Real.logb 10 ((10 : ℝ) ^ k) = k := by
  rw [← Real.rpow_intCast, Real.logb_rpow (by norm_num) (by norm_num)]

theorem noisy_rest (G e : ℝ) :
    restEnergy 3 (noisyPowers G) (G / 100) e 0 = G / 4 + G / 10000 - G / 50 + e ∧
    restEnergy 3 (noisyPowers G) (G / 100) e 1 = G / 10000 - G / 100 + e ∧
    restEnergy 3 (noisyPowers G) (G / 100) e 2 = e := by
  refine ⟨?_, ?_, ?_⟩ <;> simp [restEnergy, Finset.sum_range_succ, noisyPowers] <;> ring

/-- With noise the corrected curve of the response rises. -/
theorem noisy_one : ∃ e : ℝ, 0.0123313 < e ∧ decayCurve (noisy 1) 16 5 =
    .ok [0, level (e - 99 / 10000) - level (2301 / 10000 + e), level e - level (2301 / 10000 + e)] := by
  classical
  have ht := tiny_lt
  obtain ⟨h0, h1, h2, h3⟩ := noisy_levels 1 (by norm_num)
  have hy0 : level (1 / 10000) = -40 := by
    rw [level_pos _ (by linarith), show (1 / 10000 : ℝ) = (10 : ℝ) ^ (-4 : ℤ) by norm_num, logb_ten_pow]
    norm_num
  have hy1 : level (1 / 4) ≤ 0 := by
    rw [level_pos _ (by linarith)]
    have : Real.logb 10 (1 / 4) ≤ 0 := Real.logb_nonpos (by norm_num) (by norm_num) (by norm_num)
    linarith
  have hfit := three_points (signalDb 16 3 (noisyPowers 1))
  generalize signalDb 16 3 (noisyPowers 1) 0 = y0 at *
  generalize signalDb 16 3 (noisyPowers 1) 1 = y1 at *
  generalize signalDb 16 3 (noisyPowers 1) 2 = y2 at *
  rw [hy0] at h0
  obtain ⟨a, ha⟩ : ∃ a, a = (y2 - y0) * (16 / 3) := ⟨_, rfl⟩
  obtain ⟨b, hb⟩ : ∃ b, b = (5 * y0 + 2 * y1 - y2) / 6 := ⟨_, rfl⟩
  rw [← ha, ← hb] at hfit
  have ha0 : 0 ≤ a := by rw [ha]; nlinarith
  have hb0 : b < 0 := by rw [hb]; linarith
  have hb1 : -b ≤ 280 / 6 := by rw [hb]; linarith
  have hlog0 : 0 < Real.log 10 := Real.log_pos (by norm_num)
  have hlog := log_ten_lt
  have hnoise : 10 * Real.logb 10 (1 / 100 : ℝ) = -20 := by
    rw [show (1 / 100 : ℝ) = (10 : ℝ) ^ (-2 : ℤ) by norm_num, logb_ten_pow]
    norm_num
  have ht1 : 0 < (compensation a b (1 / 100)).2.1 := by
    change 0 < (10 * Real.logb 10 (1 / 100 : ℝ) - a) / b
    rw [hnoise]
    exact div_pos_of_neg_of_neg (by linarith) hb0
  have hB : (1 : ℝ) ≤ Level.fromDb a false := by
    unfold Level.fromDb
    exact Real.one_le_rpow (by norm_num) (div_nonneg ha0 (by simp [Level.dbFactor]))
  have hcomp : compensate 16 a b (1 / 100) = some (10 * (1 / 100) / (-b * Real.log 10) * 16) := by
    unfold compensate
    rw [if_neg (by norm_num), if_neg]
    · rw [(C62_fit_coefficients_swapped a b (1 / 100) (by norm_num)).2 hb0 ht1.ne' 0,
        missingEnergy_eq _ _ _ (by linarith)]
      norm_num
    · rintro (h | h)
      · rcases h with h | h
        · linarith
        · exact absurd h (not_le.2 ht1)
      · rw [← h] at hB
        norm_num at hB
  refine ⟨10 * (1 / 100) / (-b * Real.log 10) * 16, ?_, ?_⟩
  · have hpos : 0 < -b * Real.log 10 := mul_pos (by linarith) hlog0
    have hle : -b * Real.log 10 < 110 := by nlinarith
    have : 10 * (1 / 100) / 110 ≤ 10 * (1 / 100) / (-b * Real.log 10) :=
      div_le_div_of_nonneg_left (by norm_num) hpos hle.le
    norm_num at this ⊢
    linarith
  · have hE : 0.0123313 < 10 * (1 / 100) / (-b * Real.log 10) * 16 := by
      have hpos : 0 < -b * Real.log 10 := mul_pos (by linarith) hlog0
      have hle : -b * Real.log 10 < 110 := by nlinarith
      have : 10 * (1 / 100) / 110 ≤ 10 * (1 / 100) / (-b * Real.log 10) :=
        div_le_div_of_nonneg_left (by norm_num) hpos hle.le
      norm_num at this ⊢
      linarith
    generalize 10 * (1 / 100) / (-b * Real.log 10) * 16 = E at *
    rw [noisy_curve 1 one_pos]
    norm_num only [one_pow]
    unfold curve
    rw [noisy_fitStart 1 one_pos]
    simp only [hfit, hcomp]
    obtain ⟨r0, r1, r2⟩ := noisy_rest 1 E
    rw [List.find?_eq_none.2]
    · simp only [toCurve]
      rw [if_neg (by norm_num), show List.range 3 = [0, 1, 2] from rfl]
      simp only [List.map_cons, List.map_nil, r0, r1, r2, sub_self]
      norm_num at hE
      rw [powerDb_of_nonneg _ (by linarith), powerDb_of_nonneg _ (by linarith), powerDb_of_nonneg _ (by linarith)]
      norm_num
      ring_nf
    · intro n hn
      rw [List.mem_range] at hn
      norm_num at hE
      simp only [decide_eq_true_eq, not_le]
      interval_cases n
      · rw [r0]; linarith
      · rw [r1]; linarith
      · rw [r2]; linarith

theorem noisy_thousand : decayCurve (noisy 1000) 16 5 =
    .ok [0, level 100 - level 250100] := by
  classical
  have ht := tiny_lt
  obtain ⟨h0, h1, h2, h3⟩ := noisy_levels (1000 ^ 2) (by norm_num)
  have hy0 : level (1000 ^ 2 / 10000) = 20 := by
    rw [level_pos _ (by norm_num; linarith), show (1000 ^ 2 / 10000 : ℝ) = (10 : ℝ) ^ (2 : ℤ) by norm_num, logb_ten_pow]
    norm_num
  have hfit := three_points (signalDb 16 3 (noisyPowers (1000 ^ 2)))
  rw [noisy_curve 1000 (by norm_num)]
  unfold curve
  rw [noisy_fitStart (1000 ^ 2) (by norm_num)]
  simp only [hfit]
  have hc : ∀ a b : ℝ, 0 ≤ b → compensate 16 a b (1000 ^ 2 / 100) = none := by
    intro a b hb
    unfold compensate
    rw [if_neg (by norm_num), if_pos (.inl (.inl hb))]
  rw [hc _ _ (by
    rw [hy0] at h0
    generalize signalDb 16 3 (noisyPowers (1000 ^ 2)) 0 = y0 at *
    generalize signalDb 16 3 (noisyPowers (1000 ^ 2)) 1 = y1 at *
    generalize signalDb 16 3 (noisyPowers (1000 ^ 2)) 2 = y2 at *
    clear h3
    linarith)]
  simp only [plainCurve, toCurve]
  rw [if_neg (by norm_num), show List.range (3 * 95 / 100) = [0, 1] from rfl]
  have r0 : restEnergy 3 (noisyPowers (1000 ^ 2)) 0 0 0 = 250100 := by
    simp [restEnergy, Finset.sum_range_succ, noisyPowers]
    norm_num
  have r1 : restEnergy 3 (noisyPowers (1000 ^ 2)) 0 0 1 = 100 := by
    simp [restEnergy, Finset.sum_range_succ, noisyPowers]
    norm_num
  simp only [List.map_cons, List.map_nil, r0, r1, sub_self]
  rw [powerDb_of_nonneg _ (by norm_num), powerDb_of_nonneg _ (by norm_num)]

/-- With noise the corrected curve can rise, so that it is no decay curve and the search for levels in
it (which needs a sorted array) is not justified. -/
theorem C123_rises_wrong : ∃ x fs l, decayCurve x fs x.length = .ok l ∧ 2 < l.length ∧
    l.getD 1 0 < l.getD 2 0 := by
  obtain ⟨e, he, h⟩ := noisy_one
  refine ⟨noisy 1, 16, _, h, by simp, ?_⟩
  have ht := tiny_lt
  norm_num at he
  have := level_lt (e - 99 / 10000) e (by linarith) (by linarith)
  simpa using this

/-- The curve depends on the gain of the response: its length and its values change. -/
theorem C123_gain_wrong : ∃ (x : List ℝ) (fs : ℕ) (g : ℝ) (l l' : List ℝ), 0 < g ∧
    decayCurve x fs x.length = .ok l ∧ decayCurve (x.map (g * ·)) fs x.length = .ok l' ∧
    l'.length < l.length ∧ l'.getD 1 0 < -30 ∧ -20 < l.getD 1 0 := by
  obtain ⟨e, he, h⟩ := noisy_one
  have hm : (noisy 1).map ((1000 : ℝ) * ·) = noisy 1000 := by
    simp [noisy]
    norm_num
  have ht := tiny_lt
  norm_num at he
  refine ⟨noisy 1, 16, 1000, _, _, by norm_num, h, by rw [hm]; exact noisy_thousand, by simp, ?_, ?_⟩
  · simp only [List.getD_cons_succ, List.getD_cons_zero]
    rw [level_pos _ (by linarith), level_pos _ (by linarith)]
    have h1 : Real.logb 10 (100 : ℝ) = 2 := by
      rw [show (100 : ℝ) = (10 : ℝ) ^ (2 : ℤ) by norm_num, logb_ten_pow]
      norm_num
    have h2 : Real.logb 10 (100000 : ℝ) = 5 := by
      rw [show (100000 : ℝ) = (10 : ℝ) ^ (5 : ℤ) by norm_num, logb_ten_pow]
      norm_num
    have h3 : Real.logb 10 (100000 : ℝ) < Real.logb 10 250100 :=
      Real.logb_lt_logb (by norm_num) (by norm_num) (by norm_num)
    linarith
  · simp only [List.getD_cons_succ, List.getD_cons_zero]
    rw [level_pos _ (by linarith), level_pos _ (by linarith)]
    have h1 : Real.logb 10 (2301 / 10000 + e) < Real.logb 10 (100 * (e - 99 / 10000)) :=
      Real.logb_lt_logb (by norm_num) (by linarith) (by linarith)
    rw [Real.logb_mul (by norm_num) (by linarith),
      show (100 : ℝ) = (10 : ℝ) ^ (2 : ℤ) by norm_num, logb_ten_pow] at h1
    push_cast at h1
    linarith

/-! ### The hypotheses are met -/

/-- Responses with a curve. -/
example : ∃ l, decayCurve (noisy 1) 16 5 = .ok l ∧ l.length = 3 := by
  obtain ⟨e, -, h⟩ := noisy_one
  exact ⟨_, h, by simp⟩

/-- A response without noise. -/
example : ∃ l, decayCurve [0, 0, 1, 1 / 2] 16 4 = .ok l ∧
    variance (if 4 ≠ [0, 0, 1, (1 / 2 : ℝ)].length then [0, 0, 1, (1 / 2 : ℝ)].drop 4
      else [0, 0, 1, (1 / 2 : ℝ)].take (irStart (-20) [0, 0, 1, 1 / 2])) = some 0 := by
  classical
  have hm : Level.maxAbs [0, 0, 1, 1 / 2] = 1 := by
    simp [Level.maxAbs]
    norm_num
  have ha : argmaxAbs [0, 0, 1, 1 / 2] = 2 := by
    unfold argmaxAbs
    rw [hm]
    simp only [List.map_cons, List.map_nil, abs_zero, abs_one]
    rw [List.idxOf_cons_ne _ (by norm_num), List.idxOf_cons_ne _ (by norm_num), List.idxOf_cons_self]
  have ht : threshold (-20) [0, 0, 1, 1 / 2] = 1 / 10 := by
    unfold threshold
    rw [ha]
    unfold Level.fromDb Level.dbFactor
    norm_num
  have hs : irStart (-20) [0, 0, 1, 1 / 2] = 1 := by
    unfold irStart
    rw [ha, ht]
    simp only [descend]
    rw [if_neg (by norm_num), if_pos (by norm_num)]
  have hv : variance [0] = some 0 := by simp [variance]
  rw [hs]
  have hd : ∃ l, decayCurve [0, 0, 1, 1 / 2] 16 4 = .ok l := by
    unfold decayCurve
    simp only [hs, List.take_succ_cons, List.take_zero, List.drop_succ_cons, List.drop_zero, List.map_cons,
      List.map_nil, List.length_cons, List.length_nil, ne_eq, not_true_eq_false, if_false, hv, reduceCtorEq]
    unfold curve
    have hf : ∀ p : ℕ → ℝ, p 1 ≠ 0 → fitStart 16 3 p 0 = some 0 := by
      intro p hp
      unfold fitStart
      rw [if_pos rfl, if_pos ⟨1, by norm_num, hp⟩]
    have hp : ∀ p, ∃ l, plainCurve 3 p = .ok l := by
      intro p
      unfold plainCurve toCurve
      rw [if_neg (by norm_num)]
      exact ⟨_, rfl⟩
    have ht : ∀ L e, L ≠ 0 → ∃ l, toCurve L e = .ok l := by
      intro L e hL
      unfold toCurve
      rw [if_neg hL]
      exact ⟨_, rfl⟩
    simp only [Nat.reduceAdd]
    rw [hf _ (by simp)]
    simp only [three_points]
    split
    · exact hp _
    · split
      · exact ht _ _ (by norm_num)
      · split_ifs with hj
        · exact hp _
        · exact ht _ _ (by omega)
  obtain ⟨l, hl⟩ := hd
  exact ⟨l, hl, by simpa using hv⟩

/-- A response that starts with its first sample. -/
example : decayCurve [1, 1 / 2] 48000 2 = .error .indexError :=
  C123_start_wrong [1, 1 / 2] 48000 (by simp) (by
    have hm : Level.maxAbs [1, 1 / 2] = 1 := by
      simp [Level.maxAbs]
      norm_num
    have ha : argmaxAbs [1, 1 / 2] = 0 := by
      unfold argmaxAbs
      rw [hm]
      simp
    unfold irStart
    rw [ha]
    rfl)

end Verif.DecayCurve
