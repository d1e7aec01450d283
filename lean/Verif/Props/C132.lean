import Verif.Model.Descriptors
import Verif.Props.C61
import Verif.Props.C131

/-!
# C132: room acoustical descriptors with trimming, for bands, and the bass ratio
-/

namespace Verif.Room

open Level

/-- Without trimming these are the descriptors of C61. -/
theorem C132_untrimmed (fs : ℕ) (calls : Calls) (x : List ℝ) :
    d50Of fs calls false x = .ok (d50 fs x) ∧ c80Of fs calls false x = .ok (c80 fs x) ∧
    centerTimeOf fs calls false x = .ok (centerTime fs x) := by
  refine ⟨?_, ?_, ?_⟩
  · unfold d50Of d50
    dsimp only
    rw [if_neg (by simp), List.take_length]
  · unfold c80Of c80
    dsimp only
    rw [if_neg (by simp), List.take_length]
  · unfold centerTimeOf centerTime
    dsimp only
    rw [if_neg (by simp), List.take_length]

theorem energy_take_mono (x : List ℝ) {m n : ℕ} (h : m ≤ n) : energy (x.take m) ≤ energy (x.take n) := by
  have h1 := energy_take_drop (x.take n) m
  rw [List.take_take, min_eq_left h] at h1
  linarith [energy_nonneg ((x.take n).drop m)]

theorem energy_take_le (x : List ℝ) (n : ℕ) : energy (x.take n) ≤ energy x := by
  linarith [energy_take_drop x n, energy_nonneg (x.drop n)]

/-- The definition is the energy of the first 50 ms from the start over the energy until the end
that the trimming found (at least 50 ms).  It lies between 0 and 1. -/
theorem C132_d50 (fs : ℕ) (calls : Calls) (x : List ℝ) (stop : ℕ)
    (hs : calls.stop (x.drop (irStart (-20) x)) = .ok stop) :
    ∃ r, d50Of fs calls true x = .ok r ∧ ∀ v, r = some v →
      v * energyIn x (irStart (-20) x) (irStart (-20) x + max (50 * fs / 1000) stop) =
        energyIn x (irStart (-20) x) (irStart (-20) x + 50 * fs / 1000) ∧ 0 ≤ v ∧ v ≤ 1 := by
  unfold d50Of
  dsimp only
  rw [if_pos rfl, hs]
  refine ⟨_, rfl, fun v hv => ?_⟩
  split_ifs at hv with h0
  cases hv
  have hm := energy_take_mono (x.drop (irStart (-20) x)) (le_max_left (50 * fs / 1000) stop)
  have hp : 0 < energy ((x.drop (irStart (-20) x)).take (max (50 * fs / 1000) stop)) :=
    lt_of_le_of_ne (energy_nonneg _) (Ne.symm h0)
  refine ⟨?_, div_nonneg (energy_nonneg _) hp.le, (div_le_one hp).mpr hm⟩
  rw [← (energy_slice x _ _).1, ← (energy_slice x _ _).1, div_mul_cancel₀ _ h0]

/-- Trimming never lowers the definition or the clarity: only late energy is left out. -/
theorem C132_trimming_raises (fs : ℕ) (calls : Calls) (x : List ℝ) (v w : ℝ) :
    (d50Of fs calls true x = .ok (some v) → d50Of fs calls false x = .ok (some w) → w ≤ v) ∧
    (c80Of fs calls true x = .ok (some v) → c80Of fs calls false x = .ok (some w) → w ≤ v) := by
  constructor
  · intro h1 h2
    unfold d50Of at h1 h2
    dsimp only at h1 h2
    rw [if_pos rfl] at h1
    rw [if_neg (by simp), List.take_length] at h2
    cases hs : calls.stop (x.drop (irStart (-20) x)) with
    | error e => rw [hs] at h1; cases h1
    | ok stop =>
      rw [hs] at h1
      have h1 := Except.ok.inj h1
      have h2 := Except.ok.inj h2
      split_ifs at h1 with a1
      split_ifs at h2 with a2
      cases h1
      cases h2
      have hp : 0 < energy ((x.drop (irStart (-20) x)).take (max (50 * fs / 1000) stop)) :=
        lt_of_le_of_ne (energy_nonneg _) (Ne.symm a1)
      exact div_le_div_of_nonneg_left (energy_nonneg _) hp (energy_take_le _ _)
  · intro h1 h2
    unfold c80Of at h1 h2
    dsimp only at h1 h2
    rw [if_pos rfl] at h1
    rw [if_neg (by simp), List.take_length] at h2
    cases hs : calls.stop (x.drop (irStart (-20) x)) with
    | error e => rw [hs] at h1; cases h1
    | ok stop =>
      rw [hs] at h1
      have h1 := Except.ok.inj h1
      have h2 := Except.ok.inj h2
      split_ifs at h1 with a1
      split_ifs at h2 with a2
      push Not at a1 a2
      cases h1
      cases h2
      have pos : ∀ y : List ℝ, energy y ≠ 0 → 0 < energy y := fun y h =>
        lt_of_le_of_ne (energy_nonneg _) (Ne.symm h)
      have hl : energy (((x.drop (irStart (-20) x)).take (max (80 * fs / 1000) stop)).drop (80 * fs / 1000)) ≤
          energy ((x.drop (irStart (-20) x)).drop (80 * fs / 1000)) := by
        rw [List.drop_take]
        exact energy_take_le _ _
      have hle := div_le_div_of_nonneg_left (pos _ a2.1).le (pos _ a1.2) hl
      have hlog := Real.logb_le_logb_of_le (b := 10) (by norm_num)
        (div_pos (pos _ a2.1) (pos _ a2.2)) hle
      linarith

/-- If the trimming finds the end within the first 80 ms, no late energy is left: the clarity is
not a finite number, and the definition is 1 if the end lies within 50 ms. -/
theorem C132_early_end (fs : ℕ) (calls : Calls) (x : List ℝ) (stop : ℕ)
    (hs : calls.stop (x.drop (irStart (-20) x)) = .ok stop) :
    (stop ≤ 80 * fs / 1000 → c80Of fs calls true x = .ok none) ∧
    (stop ≤ 50 * fs / 1000 → energy ((x.drop (irStart (-20) x)).take (50 * fs / 1000)) ≠ 0 →
      d50Of fs calls true x = .ok (some 1)) := by
  constructor
  · intro h
    unfold c80Of
    dsimp only
    rw [if_pos rfl, hs]
    dsimp only
    rw [max_eq_left h, if_pos]
    right
    rw [List.drop_take, Nat.sub_self]
    rfl
  · intro h h0
    unfold d50Of
    dsimp only
    rw [if_pos rfl, hs]
    dsimp only
    rw [max_eq_left h, if_neg h0, div_self h0]

/-- The centre time lies between 0 and the duration of the trimmed response. -/
theorem C132_center_time (fs : ℕ) (calls : Calls) (x : List ℝ) (auto : Bool) (v : ℝ)
    (h : centerTimeOf fs calls auto x = .ok (some v)) :
    0 ≤ v ∧ ∃ len ≤ x.length, v ≤ (len : ℝ) / fs := by
  have key : ∀ y : List ℝ, ∀ v : ℝ, (if (y.map (· ^ 2)).sum = 0 then none
      else some (((y.map (· ^ 2)).mapIdx fun n v => v * timeVector fs (y.map (· ^ 2)).length n).sum /
        (y.map (· ^ 2)).sum) : Option ℝ) = some v → 0 ≤ v ∧ v ≤ (y.length : ℝ) / fs := by
    intro y v hv
    split_ifs at hv with h0
    cases hv
    have hlen : (y.map (· ^ 2)).length = y.length := by simp
    have hmem : ∀ a ∈ y.map (fun a : ℝ => a ^ 2), (0 : ℝ) ≤ a := by
      intro a ha
      obtain ⟨b, -, rfl⟩ := List.mem_map.mp ha
      exact sq_nonneg b
    have hpos : 0 < (y.map (· ^ 2)).sum := lt_of_le_of_ne (List.sum_nonneg hmem) (Ne.symm h0)
    have htv : ∀ n < y.length, 0 ≤ timeVector fs y.length n ∧
        timeVector fs y.length n ≤ (y.length : ℝ) / fs := by
      intro n hn
      have hd : (0 : ℝ) ≤ (y.length : ℝ) / fs := by positivity
      unfold timeVector
      by_cases h1 : y.length - 1 = 0
      · rw [h1]
        simpa using hd
      · have hc : (0 : ℝ) < ((y.length - 1 : ℕ) : ℝ) := by
          have : 0 < y.length - 1 := by omega
          exact_mod_cast this
        refine ⟨by positivity, ?_⟩
        have hn' : (n : ℝ) ≤ ((y.length - 1 : ℕ) : ℝ) := by
          have : n ≤ y.length - 1 := by omega
          exact_mod_cast this
        rw [← mul_div_assoc, div_le_iff₀ hc, mul_comm]
        exact mul_le_mul_of_nonneg_left hn' hd
    -- weighted sums
    have gen : ∀ (z : List ℝ) (f : ℕ → ℝ) (B : ℝ), (∀ a ∈ z, 0 ≤ a) →
        (∀ n < z.length, 0 ≤ f n ∧ f n ≤ B) →
        0 ≤ (z.mapIdx fun n v => v * f n).sum ∧ (z.mapIdx fun n v => v * f n).sum ≤ B * z.sum := by
      intro z
      induction z with
      | nil => intro f B _ _; simp
      | cons a z ih =>
        intro f B ha hf
        rw [List.mapIdx_cons, List.sum_cons, List.sum_cons]
        obtain ⟨i1, i2⟩ := ih (fun n => f (n + 1)) B (fun b hb => ha b (by simp [hb]))
          (fun n hn => hf (n + 1) (by simpa using hn))
        obtain ⟨f1, f2⟩ := hf 0 (by simp)
        have ha0 := ha a (by simp)
        constructor
        · have := mul_nonneg ha0 f1
          linarith
        · have := mul_le_mul_of_nonneg_left f2 ha0
          linarith
    rw [hlen]
    obtain ⟨g1, g2⟩ := gen (y.map (· ^ 2)) (timeVector fs y.length) ((y.length : ℝ) / fs) hmem
      (fun n hn => htv n (by rwa [hlen] at hn))
    exact ⟨div_nonneg g1 hpos.le, (div_le_iff₀ hpos).mpr g2⟩
  have hstop : ∃ stop, (if (((x.drop (irStart (-20) x)).take stop).map (· ^ 2)).sum = 0 then none
      else some (((((x.drop (irStart (-20) x)).take stop).map (· ^ 2)).mapIdx fun n v =>
        v * timeVector fs (((x.drop (irStart (-20) x)).take stop).map (· ^ 2)).length n).sum /
        (((x.drop (irStart (-20) x)).take stop).map (· ^ 2)).sum) : Option ℝ) = some v := by
    unfold centerTimeOf at h
    dsimp only at h
    cases auto with
    | false =>
      rw [if_neg (by simp)] at h
      exact ⟨_, Except.ok.inj h⟩
    | true =>
      rw [if_pos rfl] at h
      cases hs : calls.stop (x.drop (irStart (-20) x)) with
      | error e => rw [hs] at h; cases h
      | ok stop =>
        rw [hs] at h
        exact ⟨_, Except.ok.inj h⟩
  obtain ⟨stop, hstop⟩ := hstop
  obtain ⟨k1, k2⟩ := key _ _ hstop
  refine ⟨k1, _, ?_, k2⟩
  rw [List.length_take, List.length_drop]
  omega

/-! ### Bands -/

theorem mapM_spec {α β : Type} (f : α → Except Err β) : ∀ (l : List α) (r : List β), l.mapM f = .ok r →
    r.length = l.length ∧ ∀ i (hi : i < l.length) (hr : i < r.length), f l[i] = .ok r[i]
  | [], r, h => by
    cases h
    exact ⟨rfl, fun i hi => by simp at hi⟩
  | a :: l, r, h => by
    rw [List.mapM_cons] at h
    cases ha : f a with
    | error e => rw [ha] at h; cases h
    | ok b =>
      rw [ha] at h
      cases hl : l.mapM f with
      | error e => rw [hl] at h; cases h
      | ok r' =>
        rw [hl] at h
        cases h
        obtain ⟨i1, i2⟩ := mapM_spec f l r' hl
        refine ⟨by simp [i1], fun i hi hr => ?_⟩
        cases i with
        | zero => exact ha
        | succ i => exact i2 i (by simpa using hi) (by simpa using hr)

/-- The result has one row per band, which is the result of `descriptors` for the band with its
default arguments; the bass ratio is refused; other objects are refused. -/
theorem C132_bands (fs : ℕ) (calls : Calls) (bands : List (List (List ℝ))) (d : Descriptor)
    (auto : Bool) :
    descriptors fs calls (.bands bands) .bassRatio auto = .error .assertionError ∧
    descriptors fs calls .other d auto = .error .typeError ∧
    ∀ r, descriptors fs calls (.bands bands) d auto = .ok r →
      r.length = bands.length ∧ ∀ i (hi : i < bands.length) (hr : i < r.length),
        descriptors fs calls (.response bands[i]) d true = .ok [r[i]] := by
  refine ⟨by simp [descriptors], rfl, fun r h => ?_⟩
  unfold descriptors at h
  dsimp only at h
  split_ifs at h
  obtain ⟨h1, h2⟩ := mapM_spec _ _ _ h
  refine ⟨h1, fun i hi hr => ?_⟩
  unfold descriptors
  dsimp only
  rw [h2 i hi hr]

/-- For an impulse response every channel has its own value, which depends on this channel only. -/
theorem C132_channels (fs : ℕ) (calls : Calls) (channels : List (List ℝ)) (auto : Bool)
    (r : List (List (Option ℝ))) (d : Descriptor) (hd : d ≠ .bassRatio)
    (h : descriptors fs calls (.response channels) d auto = .ok r) :
    ∃ v, r = [v] ∧ v.length = channels.length ∧ ∀ i (hi : i < channels.length) (hv : i < v.length),
      descriptors fs calls (.response [channels[i]]) d auto = .ok [[v[i]]] := by
  unfold descriptors at h
  dsimp only at h
  cases ho : ofResponse fs calls d auto channels with
  | error e => rw [ho] at h; cases h
  | ok v =>
    rw [ho] at h
    cases h
    unfold descriptors
    dsimp only
    unfold ofResponse at ho ⊢
    cases d with
    | bassRatio => exact absurd rfl hd
    | d50 =>
      obtain ⟨h1, h2⟩ := mapM_spec _ _ _ ho
      refine ⟨v, rfl, h1, fun i hi hv => ?_⟩
      dsimp only
      rw [List.mapM_cons, h2 i hi hv]
      rfl
    | c80 =>
      obtain ⟨h1, h2⟩ := mapM_spec _ _ _ ho
      refine ⟨v, rfl, h1, fun i hi hv => ?_⟩
      dsimp only
      rw [List.mapM_cons, h2 i hi hv]
      rfl
    | centerTime =>
      obtain ⟨h1, h2⟩ := mapM_spec _ _ _ ho
      refine ⟨v, rfl, h1, fun i hi hv => ?_⟩
      dsimp only
      rw [List.mapM_cons, h2 i hi hv]
      rfl

/-- Each descriptor of a response is the one that was asked for (see `C132_untrimmed`, `C132_d50` and
those of `Model/RoomDescriptors`). -/
theorem C132_dispatch (fs : ℕ) (calls : Calls) (x : List ℝ) :
    (descriptors fs calls (.response [x]) .d50 false = .ok [[d50 fs x]] ∧
    descriptors fs calls (.response [x]) .c80 false = .ok [[c80 fs x]] ∧
    descriptors fs calls (.response [x]) .centerTime false = .ok [[centerTime fs x]]) ∧
    ∀ auto v, (d50Of fs calls auto x = .ok v → descriptors fs calls (.response [x]) .d50 auto = .ok [[v]]) ∧
      (c80Of fs calls auto x = .ok v → descriptors fs calls (.response [x]) .c80 auto = .ok [[v]]) ∧
      (centerTimeOf fs calls auto x = .ok v →
        descriptors fs calls (.response [x]) .centerTime auto = .ok [[v]]) := by
  have key : ∀ auto v, (d50Of fs calls auto x = .ok v → descriptors fs calls (.response [x]) .d50 auto = .ok [[v]]) ∧
      (c80Of fs calls auto x = .ok v → descriptors fs calls (.response [x]) .c80 auto = .ok [[v]]) ∧
      (centerTimeOf fs calls auto x = .ok v →
        descriptors fs calls (.response [x]) .centerTime auto = .ok [[v]]) := by
    intro auto v
    refine ⟨fun h => ?_, fun h => ?_, fun h => ?_⟩ <;>
    · unfold descriptors ofResponse
      dsimp only
      rw [List.mapM_cons, h]
      rfl
  obtain ⟨h1, h2, h3⟩ := C132_untrimmed fs calls x
  exact ⟨⟨(key _ _).1 h1, (key _ _).2.1 h2, (key _ _).2.2 h3⟩, key⟩

theorem energy_replicate (n : ℕ) : energy (List.replicate n 1) = n := by
  unfold energy
  simp

/-- `automatic_trimming_rir=False` has no effect for bands: the result is the one with trimming.  For
a response of 100 equal samples at 1000 Hz, for which the trimming stops after 50 samples, the
definition without trimming is 1/2, but as a band it is given as 1. -/
theorem C132_flag_ignored_wrong :
    (∀ (fs : ℕ) (calls : Calls) (bands : List (List (List ℝ))) (d : Descriptor),
      descriptors fs calls (.bands bands) d false = descriptors fs calls (.bands bands) d true) ∧
    ∀ calls : Calls, calls.stop (List.replicate 100 1) = .ok 50 →
      descriptors 1000 calls (.response [List.replicate 100 1]) .d50 false = .ok [[some (1 / 2)]] ∧
      descriptors 1000 calls (.bands [[List.replicate 100 1]]) .d50 false = .ok [[some 1]] := by
  refine ⟨fun _ _ _ _ => rfl, fun calls hc => ?_⟩
  have hst : irStart (-20) (List.replicate 100 (1 : ℝ)) = 0 := by
    have hm : maxAbs (List.replicate 100 (1 : ℝ)) = 1 := by
      refine (isPeak_iff _ _ ⟨fun v hv => ?_, 1, List.mem_replicate.mpr ⟨by norm_num, rfl⟩, abs_one⟩).symm
      rw [(List.mem_replicate.mp hv).2, abs_one]
    unfold irStart argmaxAbs
    rw [hm, List.map_replicate, abs_one, List.replicate_succ, List.idxOf_cons_self]
    rfl
  constructor
  · have : d50Of 1000 calls false (List.replicate 100 1) = .ok (some (1 / 2)) := by
      unfold d50Of
      dsimp only
      rw [if_neg (by simp), hst, List.drop_zero, List.take_length, energy_replicate,
        List.take_replicate, energy_replicate]
      norm_num
    unfold descriptors ofResponse
    dsimp only
    rw [List.mapM_cons, this]
    rfl
  · have : d50Of 1000 calls true (List.replicate 100 1) = .ok (some 1) := by
      refine (C132_early_end 1000 calls _ 50 ?_).2 (by norm_num) ?_
      · rw [hst]
        exact hc
      · rw [hst, List.drop_zero, List.take_replicate, energy_replicate]
        norm_num
    unfold descriptors
    dsimp only
    rw [if_neg (by decide)]
    unfold ofResponse
    dsimp only
    rw [List.mapM_cons, List.mapM_cons, this]
    rfl

/-! ### Bass ratio -/

/-- Band-pass filter of the octave `k` octaves above 1000 Hz, from half an octave below its centre to
half an octave above, with the octave `10^(3/10)`. -/
noncomputable def octave (k : ℤ) : OctaveBank.Design :=
  .bandpass (1000 * FrequencyGrids.octaveRatio ^ (k : ℝ) * FrequencyGrids.octaveRatio ^ (-1 / 2 : ℝ))
    (1000 * FrequencyGrids.octaveRatio ^ (k : ℝ) * FrequencyGrids.octaveRatio ^ (1 / 2 : ℝ))

/-- The bass ratio is the ratio of the reverberation times of the octaves around 125 and 250 Hz to
those around 500 and 1000 Hz, for every channel; the argument for the trimming has no influence.  Up
to a sampling rate of 2001 Hz it is refused. -/
theorem C132_bass_ratio (fs : ℕ) (calls : Calls) (channels : List (List ℝ)) (auto : Bool) :
    (fs ≤ 2001 → descriptors fs calls (.response channels) .bassRatio auto = .error .assertionError) ∧
    (3000 ≤ fs → ∀ rt,
      calls.times [octave (-3), octave (-2), octave (-1), octave 0] channels = .ok rt →
      ∃ v, descriptors fs calls (.response channels) .bassRatio auto = .ok [v] ∧
        v.length = channels.length ∧ ∀ ch < channels.length,
          ∀ t125 t250 t500 t1000 : ℝ, (rt.map fun b => b.getD ch 0) = [t125, t250, t500, t1000] →
          t500 + t1000 ≠ 0 → v[ch]? = some (some ((t125 + t250) / (t500 + t1000)))) := by
  constructor
  · intro hfs
    unfold descriptors
    dsimp only
    unfold ofResponse bassRatio
    dsimp only
    rw [OctaveBank.C131_refused [125, 1000] 1 (some fs) (Or.inr (Or.inr ⟨fs, rfl, 1000, by simp, ?_⟩))]
    have : fs / 2 ≤ 1000 := by omega
    exact_mod_cast this
  · intro hfs rt htimes
    obtain ⟨B, hB, hc, hf⟩ := OctaveBank.C131_four_octaves fs hfs
    rw [hc] at hf
    rw [List.map_map] at hf
    unfold descriptors
    dsimp only
    unfold ofResponse bassRatio
    dsimp only
    rw [hB]
    dsimp only
    rw [hf]
    simp only [List.map_cons, List.map_nil, Function.comp_apply]
    unfold octave at htimes
    rw [htimes]
    refine ⟨_, rfl, by simp, fun ch hch t1 t2 t3 t4 hr h0 => ?_⟩
    have hrt : ∃ b1 b2 b3 b4, rt = [b1, b2, b3, b4] := by
      have hl := congrArg List.length hr
      rw [List.length_map] at hl
      match rt, hl with
      | [b1, b2, b3, b4], _ => exact ⟨b1, b2, b3, b4, rfl⟩
    obtain ⟨b1, b2, b3, b4, rfl⟩ := hrt
    simp only [List.map_cons, List.map_nil, List.cons.injEq, and_true] at hr
    obtain ⟨r1, r2, r3, r4⟩ := hr
    rw [List.getElem?_map, List.getElem?_range hch, Option.map_some]
    simp only [List.getD_cons_zero, List.getD_cons_succ]
    rw [r1, r2, r3, r4, if_neg h0]

/-- Concrete case: times of 2 s at 125 and 250 Hz and 1 s above give 2. -/
example : descriptors 48000 ⟨fun _ => .ok 100, fun _ _ => .ok [[2], [2], [1], [1]]⟩
    (.response [[1, 0]]) .bassRatio true = .ok [[some 2]] := by
  obtain ⟨v, h1, h2, h3⟩ := (C132_bass_ratio 48000 ⟨fun _ => .ok 100, fun _ _ => .ok [[2], [2], [1], [1]]⟩
    [[1, 0]] true).2 (by norm_num) _ rfl
  have h4 := h3 0 (by simp) 2 2 1 1 rfl (by norm_num)
  rw [h1]
  match v, h2 with
  | [w], _ =>
    simp only [List.getElem?_cons_zero, Option.some.injEq] at h4
    rw [h4]
    norm_num

end Verif.Room
