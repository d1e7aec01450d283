import Verif.Model.Lfo
import Verif.Lemmas.Peak
import Verif.Lemmas.LFilter

/-!
# C136: the low-frequency oscillator as an object
-/

namespace Verif.Lfo

open Verif.Echo Verif.Level

/-- One call of `set_parameters`. -/
structure Call where
  f : Option FreqArg
  w : Option (Option Kind)
  r : Option Bool
  sm : Option ℝ

/-- The state after a history of calls, whether they raised or not. -/
noncomputable def run (s : State) (l : List Call) : State :=
  l.foldl (fun s c => (setParameters s c.f c.w c.r c.sm).1) s

/-- A call that succeeds changes exactly the fields whose arguments are given; the frequency is the
magnitude of the number or that of the note. -/
theorem C136_set (s : State) (c : Call) (t : State) (h : setParameters s c.f c.w c.r c.sm = (t, .ok ())) :
    (match c.f with
      | none => t.freq = s.freq
      | some (.number x) => t.freq = |x|
      | some (.rhythm note bpm) => ∃ v, Rhythm.frequency note bpm = .ok v ∧ t.freq = (v : ℝ)
      | _ => False) ∧
    (match c.w with
      | none => t.kind = s.kind
      | some k => k = some t.kind) ∧
    t.randomPhase = c.r.getD s.randomPhase ∧ t.smooth = c.sm.getD s.smooth := by
  obtain ⟨f, w, r, sm⟩ := c
  unfold setParameters at h
  dsimp only at h ⊢
  rcases f with _ | f
  · rcases w with _ | (_ | k)
    · obtain ⟨rfl, -⟩ := Prod.mk.inj h
      exact ⟨rfl, rfl, rfl, rfl⟩
    · exact absurd (Prod.mk.inj h).2 (by simp)
    · obtain ⟨rfl, -⟩ := Prod.mk.inj h
      exact ⟨rfl, rfl, rfl, rfl⟩
  · cases f with
    | number x =>
      rcases w with _ | (_ | k)
      · obtain ⟨rfl, -⟩ := Prod.mk.inj h
        exact ⟨rfl, rfl, rfl, rfl⟩
      · exact absurd (Prod.mk.inj h).2 (by simp)
      · obtain ⟨rfl, -⟩ := Prod.mk.inj h
        exact ⟨rfl, rfl, rfl, rfl⟩
    | rhythm note bpm =>
      cases hv : Rhythm.frequency note bpm with
      | error e =>
        simp only [hv] at h
        exact absurd (Prod.mk.inj h).2 (by simp)
      | ok v =>
        simp only [hv] at h
        rcases w with _ | (_ | k)
        · obtain ⟨rfl, -⟩ := Prod.mk.inj h
          exact ⟨⟨v, hv, rfl⟩, rfl, rfl, rfl⟩
        · exact absurd (Prod.mk.inj h).2 (by simp)
        · obtain ⟨rfl, -⟩ := Prod.mk.inj h
          exact ⟨⟨v, hv, rfl⟩, rfl, rfl, rfl⟩
    | otherLength => exact absurd (Prod.mk.inj h).2 (by simp)
    | otherType => exact absurd (Prod.mk.inj h).2 (by simp)

/-- A call fails exactly for a frequency of another type or length, a note without a frequency, or a
waveform that does not exist. -/
theorem C136_fails (s : State) (c : Call) :
    (∃ t e, setParameters s c.f c.w c.r c.sm = (t, .error e)) ↔
      c.f = some .otherLength ∨ c.f = some .otherType ∨
        (∃ note bpm e, c.f = some (.rhythm note bpm) ∧ Rhythm.frequency note bpm = .error e) ∨
        c.w = some none := by
  obtain ⟨f, w, r, sm⟩ := c
  unfold setParameters
  dsimp only
  rcases f with _ | f
  · rcases w with _ | (_ | k) <;> simp
  · cases f with
    | number x => rcases w with _ | (_ | k) <;> simp
    | rhythm note bpm =>
      cases hv : Rhythm.frequency note bpm with
      | error e =>
        simp only [Option.some.injEq, reduceCtorEq, false_or]
        refine ⟨fun _ => Or.inl ⟨note, bpm, e, rfl, hv⟩, fun _ => ⟨s, e, ?_⟩⟩
        simp only [hv]
      | ok v =>
        rcases w with _ | (_ | k) <;> simp [hv]
    | otherLength => simp
    | otherType => simp

theorem factor_nonneg (note : List Char) : 0 ≤ Rhythm.factor note := by
  unfold Rhythm.factor
  dsimp only
  split_ifs <;> norm_num

/-- After any history of calls, also failing ones, the frequency is never negative as long as the beats per minute of
rhythms are not negative. -/
theorem C136_frequency (s : State) (hs : 0 ≤ s.freq) (l : List Call)
    (hb : ∀ c ∈ l, ∀ note bpm, c.f = some (.rhythm note bpm) → 0 ≤ bpm) : 0 ≤ (run s l).freq := by
  unfold run
  induction l generalizing s with
  | nil => exact hs
  | cons c l ih =>
    rw [List.foldl_cons]
    refine ih _ ?_ fun d hd => hb d (List.mem_cons_of_mem _ hd)
    have hc := hb c List.mem_cons_self
    obtain ⟨f, w, r, sm⟩ := c
    dsimp only at hc ⊢
    unfold setParameters
    rcases f with _ | f
    · rcases w with _ | (_ | k) <;> exact hs
    · cases f with
      | number x => rcases w with _ | (_ | k) <;> exact abs_nonneg x
      | rhythm note bpm =>
        cases hv : Rhythm.frequency note bpm with
        | error e => simpa [hv] using hs
        | ok v =>
          have h0 : 0 ≤ v := by
            unfold Rhythm.frequency at hv
            split_ifs at hv
            rw [← Except.ok.inj hv]
            exact div_nonneg (div_nonneg (by norm_num) (hc note bpm rfl)) (factor_nonneg note)
          have h1 : (0 : ℝ) ≤ (v : ℝ) := by exact_mod_cast h0
          simp only [hv]
          rcases w with _ | (_ | k) <;> exact h1
      | otherLength => exact hs
      | otherType => exact hs

/-- Not so: a call that fails leaves the object unchanged.  The frequency is set before the waveform is
checked. -/
theorem C136_not_atomic_wrong (s : State) (x : ℝ) (hx : |x| ≠ s.freq) :
    ∃ t, setParameters s (some (.number x)) (some none) none none = (t, .error .valueError) ∧ t ≠ s := by
  refine ⟨{ s with freq := |x| }, rfl, fun h => hx ?_⟩
  rw [← h]

/-- Not so: the frequency is never negative.  Numbers are taken by their magnitude, rhythms are not:
negative beats per minute give a negative frequency, and one period then has no samples. -/
theorem C136_negative_rhythm_wrong (s : State) (hk : s.kind = .harmonic) (fs : ℕ) :
    ∃ t, setParameters s (some (.rhythm "quarter".toList (-60))) none none none = (t, .ok ()) ∧
      t.freq = -1 ∧ getWaveform t fs none 0 = .ok (some []) := by
  have hv : Rhythm.frequency "quarter".toList (-60) = .ok (-1) := by decide +kernel
  have hfr : (setParameters s (some (.rhythm "quarter".toList (-60))) none none none) =
      ({ s with freq := ((-1 : ℚ) : ℝ) }, .ok ()) := by
    unfold setParameters
    simp only [hv]
    rfl
  refine ⟨_, hfr, by norm_num, ?_⟩
  unfold getWaveform
  dsimp only
  rw [hk, if_neg (by norm_num), if_neg (by norm_num)]
  have : (⌈(fs : ℝ) / (((-1 : ℚ)) : ℝ)⌉).toNat = 0 := by
    rw [Int.toNat_eq_zero, Int.ceil_le]
    push_cast
    have : (0 : ℝ) ≤ fs := Nat.cast_nonneg fs
    rw [div_neg, div_one]
    linarith
  rw [this]
  rfl

/-- With a length as many samples are returned. -/
theorem C136_length (s : State) (fs : ℕ) (n : ℤ) (shift : ℝ) (y : List ℝ)
    (h : getWaveform s fs (some n) shift = .ok (some y)) : y.length = n.toNat := by
  unfold getWaveform at h
  dsimp only at h
  cases hk : s.kind with
  | harmonic =>
    rw [hk] at h
    have := Option.some.inj (Except.ok.inj h)
    rw [← this]
    simp
  | square =>
    rw [hk] at h
    have := Option.some.inj (Except.ok.inj h)
    rw [← this]
    simp
  | sawtooth =>
    rw [hk] at h
    dsimp only at h
    split_ifs at h with h0
    · have := Option.some.inj (Except.ok.inj h)
      rw [← this]
      simp
    · unfold sawtoothSmooth at h
      split_ifs at h with h1
      dsimp only at h
      split at h
      · exact absurd h (by simp)
      · rename_i v l hw
        split_ifs at h with h2
        · exact absurd (Except.ok.inj h) (by simp)
        have := Option.some.inj (Except.ok.inj h)
        rw [← this, List.length_map, List.length_map, List.length_range]
  | triangle =>
    rw [hk] at h
    dsimp only at h
    split_ifs at h with h0
    · unfold unlessEmpty triangle at h
      dsimp only at h
      split_ifs at h
      · exact absurd (Except.ok.inj h) (by simp)
      have := Option.some.inj (Except.ok.inj h)
      rw [← this]
      simp
    · unfold triangleSmooth at h
      dsimp only at h
      split_ifs at h
      · exact absurd (Except.ok.inj h) (by simp)
      have := Option.some.inj (Except.ok.inj h)
      rw [← this]
      simp

/-- Without a length one oscillation is returned: as many samples as fit into a period. -/
theorem C136_one_period (s : State) (hs : 0 < s.freq) (fs : ℕ) (shift : ℝ) (y : List ℝ)
    (h : getWaveform s fs none shift = .ok (some y)) :
    (y.length : ℝ) * s.freq ≤ fs ∧ fs < (y.length + 1) * s.freq := by
  have hn : 0 ≤ ⌊(fs : ℝ) / s.freq⌋ := Int.floor_nonneg.mpr (by positivity)
  have hlen : (y.length : ℤ) = ⌊(fs : ℝ) / s.freq⌋ := by
    have h' : getWaveform s fs (some ⌊(fs : ℝ) / s.freq⌋) shift = .ok (some y) := by
      rw [← h]
      unfold getWaveform
      dsimp only
      rw [if_neg hs.ne', if_pos hs]
    rw [C136_length s fs _ shift y h', Int.toNat_of_nonneg hn]
  have h1 := Int.floor_le ((fs : ℝ) / s.freq)
  have h2 := Int.lt_floor_add_one ((fs : ℝ) / s.freq)
  have hlen' : (y.length : ℝ) = (⌊(fs : ℝ) / s.freq⌋ : ℝ) := by exact_mod_cast hlen
  rw [le_div_iff₀ hs] at h1
  rw [div_lt_iff₀ hs] at h2
  rw [hlen']
  exact ⟨h1, h2⟩

/-! ### Smoothed waveforms -/

theorem div_maxAbs (w : List ℝ) (h : maxAbs w ≠ 0) :
    (∀ v ∈ w.map (· / maxAbs w), |v| ≤ 1) ∧ ∃ v ∈ w.map (· / maxAbs w), |v| = 1 := by
  have hp : 0 < maxAbs w := lt_of_le_of_ne (Level.maxAbs_nonneg w) (Ne.symm h)
  constructor
  · intro v hv
    obtain ⟨u, hu, rfl⟩ := List.mem_map.mp hv
    rw [abs_div, abs_of_pos hp, div_le_one hp]
    exact Level.le_maxAbs w u hu
  · have hne : w ≠ [] := by
      rintro rfl
      exact h rfl
    obtain ⟨u, hu, he⟩ := Level.maxAbs_attained w hne
    refine ⟨u / maxAbs w, List.mem_map.mpr ⟨u, hu, rfl⟩, ?_⟩
    rw [abs_div, abs_of_pos hp, he, div_self h]

/-- The smoothed triangle stays in [-1, 1], reaches the bound, and is the scaled arc sine of a sine of
reduced amplitude, for smoothings up to 125. -/
theorem C136_triangle (freq fs shift smooth : ℝ) (h0 : 0 < smooth) (h1 : smooth < 125) (len : ℕ)
    (y : Option (List ℝ)) (h : triangleSmooth freq fs shift smooth len = .ok y) :
    (y = none ↔ ∀ n < len, Real.sin (phase freq fs shift n) = 0) ∧
    ∀ z, y = some z → z.length = len ∧ (∀ v ∈ z, |v| ≤ 1) ∧ (∃ v ∈ z, |v| = 1) ∧
      ∃ g > 0, ∀ n < len, z.getD n 0 =
        g * Real.arcsin ((1 - 0.008 * smooth) * Real.sin (phase freq fs shift n)) := by
  unfold triangleSmooth at h
  dsimp only at h
  set t := smooth * (0.08 / 10) with ht
  have ht' : t = 0.008 * smooth := by rw [ht]; norm_num; ring
  have t0 : 0 < t := by rw [ht']; positivity
  have t1 : t < 1 := by rw [ht']; norm_num at h1 ⊢; linarith
  set x := (List.range len).map fun n => (1 - t) * Real.sin (phase freq fs shift n) with hx
  set w := x.map fun v => 1 - 2 / Real.pi * Real.arccos v with hw
  have hpi := Real.pi_pos
  have hwv : ∀ v, 1 - 2 / Real.pi * Real.arccos v = 2 / Real.pi * Real.arcsin v := by
    intro v
    rw [Real.arccos]
    field_simp
    ring
  have hmax : ¬ maxAbs x > 1 := by
    rw [not_lt]
    by_cases hne : x = []
    · rw [hne]
      exact zero_le_one
    obtain ⟨u, hu, he⟩ := Level.maxAbs_attained x hne
    rw [← he]
    obtain ⟨n, -, rfl⟩ := List.mem_map.mp hu
    rw [abs_mul, abs_of_pos (by linarith : (0 : ℝ) < 1 - t)]
    have := Real.abs_sin_le_one (phase freq fs shift n)
    have h3 := abs_nonneg (Real.sin (phase freq fs shift n))
    nlinarith
  have hzero : maxAbs w = 0 ↔ ∀ n < len, Real.sin (phase freq fs shift n) = 0 := by
    constructor
    · intro hz n hn
      have hm : 1 - 2 / Real.pi * Real.arccos ((1 - t) * Real.sin (phase freq fs shift n)) ∈ w :=
        List.mem_map.mpr ⟨_, List.mem_map.mpr ⟨n, List.mem_range.mpr hn, rfl⟩, rfl⟩
      have := Level.le_maxAbs w _ hm
      rw [hz, hwv] at this
      have h4 := abs_eq_zero.mp (le_antisymm this (abs_nonneg _))
      rcases mul_eq_zero.mp h4 with h5 | h5
      · exact absurd h5 (by positivity)
      · rw [Real.arcsin_eq_zero_iff] at h5
        rcases mul_eq_zero.mp h5 with h6 | h6
        · linarith
        · exact h6
    · intro hall
      by_cases hne : w = []
      · rw [hne]
        rfl
      obtain ⟨u, hu, he⟩ := Level.maxAbs_attained w hne
      rw [← he, abs_eq_zero]
      obtain ⟨v, hv, rfl⟩ := List.mem_map.mp hu
      obtain ⟨n, hn, rfl⟩ := List.mem_map.mp hv
      rw [hwv, hall n (List.mem_range.mp hn), mul_zero, Real.arcsin_zero, mul_zero]
  split_ifs at h with e1 e2
  · obtain rfl := Except.ok.inj h
    refine ⟨⟨fun _ => hzero.mp (e2.resolve_left hmax), fun _ => rfl⟩, fun z hz => absurd hz (by simp)⟩
  · obtain rfl := Except.ok.inj h
    have hne : maxAbs w ≠ 0 := fun hc => e2 (Or.inr hc)
    have hp : 0 < maxAbs w := lt_of_le_of_ne (Level.maxAbs_nonneg w) (Ne.symm hne)
    refine ⟨⟨fun hc => absurd hc (by simp), fun hall => absurd (hzero.mpr hall) hne⟩, fun z hz => ?_⟩
    obtain rfl := Option.some.inj hz
    obtain ⟨d1, d2⟩ := div_maxAbs w hne
    refine ⟨by simp [hw, hx], d1, d2, 2 / Real.pi / maxAbs w, by positivity, fun n hn => ?_⟩
    rw [List.getD_eq_getElem _ _ (by simp [hw, hx, hn])]
    simp only [hw, hx, List.getElem_map, List.getElem_range]
    rw [hwv, ← ht']
    ring

theorem foldl_max_spec (l : List ℝ) (v : ℝ) : (∀ u ∈ v :: l, u ≤ l.foldl max v) ∧ l.foldl max v ∈ v :: l := by
  induction l generalizing v with
  | nil => simp
  | cons a l ih =>
    rw [List.foldl_cons]
    obtain ⟨h1, h2⟩ := ih (max v a)
    constructor
    · intro u hu
      have h3 := h1 (max v a) List.mem_cons_self
      rcases List.mem_cons.mp hu with rfl | hu
      · exact (le_max_left _ _).trans h3
      · rcases List.mem_cons.mp hu with rfl | hu
        · exact (le_max_right _ _).trans h3
        · exact h1 u (List.mem_cons_of_mem _ hu)
    · rcases List.mem_cons.mp h2 with h4 | h4
      · rw [h4]
        rcases max_choice v a with h5 | h5 <;> rw [h5] <;> simp
      · simp [h4]

/-- The smoothed sawtooth never exceeds 1, reaches it if any of its values is positive, and repeats
after every whole number of periods; it is refused for smoothings above 12. -/
theorem C136_sawtooth (freq fs shift smooth : ℝ) (len : ℕ) :
    (12 < smooth → sawtoothSmooth freq fs shift smooth len = .error .typeError) ∧
    ∀ y, sawtoothSmooth freq fs shift smooth len = .ok (some y) → y.length = len ∧ (∀ v ∈ y, v ≤ 1) ∧
      ((∃ v ∈ y, 0 < v) → (1 : ℝ) ∈ y) ∧
      ∀ p k : ℕ, freq / fs * p = k → ∀ n, n + p < len → y.getD (n + p) 0 = y.getD n 0 := by
  unfold sawtoothSmooth
  refine ⟨fun h => by rw [if_pos h], fun y h => ?_⟩
  split_ifs at h with h12
  dsimp only at h
  set a := max 1 ((12 - smooth) ^ (3 / 2 : ℝ)) with ha
  set w := (List.range len).map fun (n : ℕ) =>
      Real.arcsin (Real.tanh (Real.cos (Real.pi * (freq / fs) * n + shift) * a) *
        Real.sin (Real.pi * (freq / fs) * n + shift)) with hw
  have hwl : w.length = len := by simp [hw]
  cases hc : w with
  | nil =>
    rw [hc] at h
    exact absurd h (by simp)
  | cons v l =>
    rw [hc] at h
    dsimp only at h
    split_ifs at h with h0
    · exact absurd (Except.ok.inj h) (by simp)
    obtain rfl := Option.some.inj (Except.ok.inj h)
    obtain ⟨m1, m2⟩ := foldl_max_spec l v
    have hp : 0 < |l.foldl max v| := abs_pos.mpr h0
    refine ⟨by rw [List.length_map, ← hc, hwl], ?_, ?_, ?_⟩
    · intro u hu
      obtain ⟨q, hq, rfl⟩ := List.mem_map.mp hu
      rw [div_le_one hp]
      exact (m1 q hq).trans (le_abs_self _)
    · rintro ⟨u, hu, hu0⟩
      obtain ⟨q, hq, rfl⟩ := List.mem_map.mp hu
      have hq0 : 0 < q := by
        rcases div_pos_iff.mp hu0 with ⟨h1, -⟩ | ⟨-, h2⟩
        · exact h1
        · exact absurd h2 (not_lt.mpr hp.le)
      have ht : 0 < l.foldl max v := hq0.trans_le (m1 q hq)
      refine List.mem_map.mpr ⟨_, m2, ?_⟩
      rw [abs_of_pos ht, div_self ht.ne']
    · intro p k hpk n hn
      rw [← hc]
      have hget : ∀ i < len, (w.map (· / |l.foldl max v|)).getD i 0 =
          Real.arcsin (Real.tanh (Real.cos (Real.pi * (freq / fs) * i + shift) * a) *
            Real.sin (Real.pi * (freq / fs) * i + shift)) / |l.foldl max v| := by
        intro i hi
        rw [List.getD_eq_getElem _ _ (by rw [List.length_map, hwl]; exact hi), List.getElem_map]
        simp only [hw, List.getElem_map, List.getElem_range]
      rw [hget _ hn, hget n (by omega)]
      have hx : Real.pi * (freq / fs) * ((n + p : ℕ) : ℝ) + shift =
          (Real.pi * (freq / fs) * n + shift) + k * Real.pi := by
        rw [← hpk]
        push_cast
        ring
      rw [hx, Real.cos_add_nat_mul_pi, Real.sin_add_nat_mul_pi]
      rcases neg_one_pow_eq_or ℝ k with h1 | h1
      · rw [h1, one_mul, one_mul]
      · rw [h1, neg_one_mul, neg_one_mul, neg_mul, Real.tanh_neg, neg_mul_neg]

/-- Concrete case: a call that sets everything. -/
example (s : State) : setParameters s (some (.number (-2))) (some (some .square)) (some true) (some 3) =
    ({ freq := |(-2 : ℝ)|, kind := .square, smooth := 3, randomPhase := true }, .ok ()) := rfl

/-- Concrete case: the invariant for a constructed object. -/
example (s : State) (hs : 0 ≤ s.freq) (l : List Call)
    (hb : ∀ c ∈ l, ∀ note bpm, c.f = some (.rhythm note bpm) → 0 ≤ bpm) : 0 ≤ (run s l).freq :=
  C136_frequency s hs l hb

end Verif.Lfo
