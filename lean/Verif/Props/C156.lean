import Verif.Model.SmoothedDelay
import Verif.Props.C104Affine
import Verif.Props.C152
import Verif.Props.C140

/-!
# C156: smoothed group delays
-/

namespace Verif.SmoothedDelay

open OctaveSmoothing GroupDelay Latency

/-- `r` is a smoothed version of `g`: as many values, none outside the range of the values of `g`, and `g` itself
without smoothing. -/
def Smoothed (smoothing : ℕ) (g r : List ℝ) : Prop :=
  r.length = g.length ∧ (smoothing = 0 → r = g) ∧
    ∀ lo hi, (∀ t ∈ g, lo ≤ t ∧ t ≤ hi) → ∀ t ∈ r, lo ≤ t ∧ t ≤ hi

theorem smoothed_some (smoothing : ℕ) (g : List ℝ) (h : 2 ≤ g.length) :
    ∃ r, smoothed smoothing (some g) = .ok (some r) ∧ Smoothed smoothing g r := by
  unfold smoothed
  by_cases h0 : smoothing = 0
  · rw [if_pos h0]
    exact ⟨g, rfl, rfl, fun _ => rfl, fun _ _ h => h⟩
  · rw [if_neg h0]
    obtain ⟨r, w', h1, h2, h3⟩ := C104_range g none smoothing hann C104_hann (by rintro rfl; simp at h)
      (fun _ => h)
    dsimp only
    rw [h1]
    exact ⟨r, rfl, h2, fun h => absurd h h0, h3⟩

theorem smoothed_affine (smoothing : ℕ) (g : List ℝ) (h : 2 ≤ g.length) (a c : ℝ) :
    ∃ r, smoothed smoothing (some g) = .ok (some r) ∧
      smoothed smoothing (some (g.map fun t => a * t + c)) = .ok (some (r.map fun t => a * t + c)) := by
  unfold smoothed
  by_cases h0 : smoothing = 0
  · rw [if_pos h0, if_pos h0]
    exact ⟨g, rfl, rfl⟩
  · rw [if_neg h0, if_neg h0]
    obtain ⟨r, w', h1, h2⟩ := C104_affine g none smoothing hann C104_hann (by rintro rfl; simp at h)
      (fun _ => h) a c
    dsimp only
    rw [h1, h2]
    exact ⟨r, rfl, rfl⟩

theorem smoothed_constant (smoothing N : ℕ) (c : ℝ) (h : 2 ≤ N) :
    smoothed smoothing (some (List.replicate N c)) = .ok (some (List.replicate N c)) := by
  unfold smoothed
  by_cases h0 : smoothing = 0
  · rw [if_pos h0]
  · rw [if_neg h0]
    obtain ⟨w', h1⟩ := C104_constant c N none smoothing hann C104_hann h
    dsimp only
    rw [h1]
    rfl

theorem groupDelay_ok (x : List ℝ) (fs : ℕ) (analytic : Bool) (h2 : 2 ≤ x.length) :
    ∃ g, ExcessDelay.groupDelay x fs analytic = .ok (rfftfreq x.length fs, g) ∧ g.length = x.length / 2 + 1 := by
  have hf : (rfftfreq x.length fs).length = x.length / 2 + 1 := by simp [rfftfreq]
  unfold ExcessDelay.groupDelay
  cases analytic with
  | true =>
    rw [if_pos rfl]
    refine ⟨_, rfl, ?_⟩
    simp [filterDelay, hf]
  | false =>
    rw [if_neg (by simp)]
    unfold groupDelayDirect direct directPhase
    dsimp only
    rw [if_neg (by omega), if_neg (by omega)]
    by_cases hd : (rfftfreq x.length fs).getD 1 0 - (rfftfreq x.length fs).getD 0 0 ≠ 1
    · rw [if_pos hd]
      exact ⟨_, rfl, by simp [hf]⟩
    · rw [if_neg hd]
      exact ⟨_, rfl, by simp [hf]⟩

/-- **C156**: for responses of two or more samples `group_delay` with smoothing returns the frequencies of the
transform, one delay for each, none of them outside the range of the delays without smoothing; `smoothing=0` returns
these. -/
theorem C156_group_delay (x : List ℝ) (fs : ℕ) (analytic : Bool) (smoothing : ℕ) (h2 : 2 ≤ x.length) :
    ∃ g r, ExcessDelay.groupDelay x fs analytic = .ok (rfftfreq x.length fs, g) ∧
      groupDelay x fs analytic smoothing = .ok (rfftfreq x.length fs, some r) ∧ Smoothed smoothing g r := by
  obtain ⟨g, h3, h4⟩ := groupDelay_ok x fs analytic h2
  obtain ⟨r, h5, h6⟩ := smoothed_some smoothing g (by omega)
  refine ⟨g, r, h3, ?_, h6⟩
  unfold groupDelay
  rw [h3]
  dsimp only
  rw [h5]
  rfl

/-- A single sample is refused, except by the analytic computation without smoothing. -/
theorem C156_one_sample (a : ℝ) (fs : ℕ) (analytic : Bool) (smoothing : ℕ) :
    (∃ r, groupDelay [a] fs analytic smoothing = .ok r) ↔ analytic = true ∧ smoothing = 0 := by
  unfold groupDelay ExcessDelay.groupDelay
  cases analytic with
  | true =>
    simp only [if_true, true_and]
    unfold groupDelayAnalytic smoothed
    dsimp only
    by_cases h0 : smoothing = 0
    · rw [if_pos h0]
      exact ⟨fun _ => h0, fun _ => ⟨_, rfl⟩⟩
    · rw [if_neg h0]
      obtain ⟨e, he⟩ := C104_refused ((filterDelay [a] [1] (rfftfreq [a].length fs).length fs).map Prod.snd) none
        smoothing (.type hann) false (Or.inr ⟨rfl, by simp [filterDelay, rfftfreq]⟩)
      rw [he]
      constructor
      · rintro ⟨r, hr⟩
        exact absurd hr (by simp [Except.map])
      · exact fun h => absurd h h0
  | false =>
    simp only [Bool.false_eq_true, if_false, false_and, iff_false]
    rintro ⟨r, hr⟩
    unfold groupDelayDirect at hr
    rw [if_pos (by simp [rfftfreq])] at hr
    simp [Except.map] at hr

/-- **C156**: the same for the minimum and the excess group delays; if they are nan without smoothing, they are
refused with smoothing. -/
theorem C156_minimum (fast : ℕ → ℕ) (x : List ℝ) (padding fs smoothing : ℕ) (f : List ℝ) :
    (∀ g, ExcessDelay.minimumGroupDelay fast x padding fs = .ok (f, some g) →
      ∃ r, minimumGroupDelay fast x padding fs smoothing = .ok (f, some r) ∧ r.length = f.length ∧
        Smoothed smoothing g r) ∧
    (ExcessDelay.minimumGroupDelay fast x padding fs = .ok (f, none) →
      minimumGroupDelay fast x padding fs smoothing =
        if smoothing = 0 then .ok (f, none) else .error .valueError) := by
  constructor
  · intro g hg
    have hl : 2 ≤ f.length ∧ g.length = f.length := by
      unfold ExcessDelay.minimumGroupDelay at hg
      dsimp only at hg
      by_cases c : ((MinimumPhase.positiveBins (fast (max (x.length * padding) x.length)) fs).map Prod.fst).length < 2
      · rw [if_pos c] at hg
        exact absurd hg (by simp)
      rw [if_neg c] at hg
      cases hm : MinimumPhase.minimumPhase (fast (max (x.length * padding) x.length)) fs (fun n => x.getD n 0) with
      | none => rw [hm] at hg; simp at hg
      | some l =>
        rw [hm] at hg
        dsimp only at hg
        unfold directPhase at hg
        rw [if_neg c] at hg
        split_ifs at hg <;>
        · simp only [Except.map, Except.ok.injEq, Prod.mk.injEq, Option.some.injEq] at hg
          obtain ⟨rfl, rfl⟩ := hg
          exact ⟨not_lt.1 c, by simp⟩
    obtain ⟨r, h5, h6⟩ := smoothed_some smoothing g (by omega)
    refine ⟨r, ?_, by rw [h6.1, hl.2], h6⟩
    unfold minimumGroupDelay
    rw [hg]
    dsimp only
    rw [h5]
    rfl
  · intro hg
    unfold minimumGroupDelay
    rw [hg]
    dsimp only
    unfold smoothed
    split_ifs <;> rfl

theorem excess_length (fast : ℕ → ℕ) (x : List ℝ) (fs : ℕ) (analytic : Bool) (f g : List ℝ)
    (hg : ExcessDelay.excessGroupDelay fast x fs analytic = .ok (f, some g)) : 2 ≤ f.length ∧ g.length = f.length := by
  unfold ExcessDelay.excessGroupDelay at hg
  cases hm : ExcessDelay.minimumGroupDelay fast x 1 fs with
  | error e => rw [hm] at hg; simp at hg
  | ok p =>
    obtain ⟨fm, m⟩ := p
    rw [hm] at hg
    dsimp only at hg
    cases hd : ExcessDelay.groupDelay x fs analytic with
    | error e => rw [hd] at hg; simp at hg
    | ok q =>
      obtain ⟨f', gd⟩ := q
      rw [hd] at hg
      dsimp only at hg
      cases hi : (if f'.length ≠ fm.length then InterpolateFr.interpolateFr f' gd fm none else .ok gd) with
      | error e => rw [hi] at hg; simp at hg
      | ok gd' =>
        rw [hi] at hg
        cases m with
        | none => simp at hg
        | some m =>
          simp only [Option.map_some, Except.ok.injEq, Prod.mk.injEq, Option.some.injEq] at hg
          obtain ⟨rfl, rfl⟩ := hg
          refine ⟨?_, by simp⟩
          unfold ExcessDelay.minimumGroupDelay at hm
          dsimp only at hm
          by_contra hc
          by_cases c : ((MinimumPhase.positiveBins (fast (max (x.length * 1) x.length)) fs).map Prod.fst).length < 2
          · rw [if_pos c] at hm
            exact absurd hm (by simp)
          rw [if_neg c] at hm
          cases hp : MinimumPhase.minimumPhase (fast (max (x.length * 1) x.length)) fs (fun n => x.getD n 0) with
          | none => rw [hp] at hm; simp at hm
          | some l =>
            rw [hp] at hm
            dsimp only at hm
            unfold directPhase at hm
            rw [if_neg c] at hm
            split_ifs at hm <;>
            · simp only [Except.map, Except.ok.injEq, Prod.mk.injEq] at hm
              obtain ⟨rfl, -⟩ := hm
              exact c (not_le.1 hc)

theorem C156_excess (fast : ℕ → ℕ) (x : List ℝ) (fs : ℕ) (analytic : Bool) (smoothing : ℕ) (f : List ℝ) :
    (∀ g, ExcessDelay.excessGroupDelay fast x fs analytic = .ok (f, some g) →
      ∃ r, excessGroupDelay fast x fs analytic smoothing = .ok (f, some r) ∧ r.length = f.length ∧
        Smoothed smoothing g r) ∧
    (ExcessDelay.excessGroupDelay fast x fs analytic = .ok (f, none) →
      excessGroupDelay fast x fs analytic smoothing =
        if smoothing = 0 then .ok (f, none) else .error .valueError) := by
  constructor
  · intro g hg
    obtain ⟨l1, l2⟩ := excess_length fast x fs analytic f g hg
    obtain ⟨r, h5, h6⟩ := smoothed_some smoothing g (by omega)
    refine ⟨r, ?_, by rw [h6.1, l2], h6⟩
    unfold excessGroupDelay
    rw [hg]
    dsimp only
    rw [h5]
    rfl
  · intro hg
    unfold excessGroupDelay
    rw [hg]
    dsimp only
    unfold smoothed
    split_ifs <;> rfl

/-- **C156**: a delay of the response by `d` samples, with nothing lost at its end, adds `d / fs` to every smoothed
value of the analytic computation, if the response is not zero at any of the frequencies. -/
theorem C156_delay (x : List ℝ) (fs smoothing d : ℕ) (h2 : 2 ≤ x.length) (hd : d ≤ x.length) (hs : EndsSilent d x)
    (hx : ∀ k ≤ x.length / 2, resp x (omegaGrid (x.length / 2 + 1) k) ≠ 0) :
    ∃ f r, groupDelay x fs true smoothing = .ok (f, some r) ∧
      groupDelay (delayed d x) fs true smoothing = .ok (f, some (r.map fun t => t + (d : ℝ) / fs)) := by
  have hf : (rfftfreq x.length fs).length = x.length / 2 + 1 := by simp [rfftfreq]
  obtain ⟨r, h3, h4⟩ := smoothed_affine smoothing
    ((filterDelay x [1] (x.length / 2 + 1) fs).map Prod.snd) (by simp [filterDelay]; omega) 1 (d / fs)
  refine ⟨rfftfreq x.length fs, r, ?_, ?_⟩
  · unfold groupDelay ExcessDelay.groupDelay
    rw [if_pos rfl]
    unfold groupDelayAnalytic
    dsimp only
    rw [hf, h3]
    rfl
  · unfold groupDelay ExcessDelay.groupDelay
    rw [if_pos rfl]
    unfold groupDelayAnalytic
    dsimp only
    rw [delayed_length d x hd, hf]
    have e : (filterDelay (delayed d x) [1] (x.length / 2 + 1) fs).map Prod.snd =
        ((filterDelay x [1] (x.length / 2 + 1) fs).map Prod.snd).map fun t => (1 : ℝ) * t + (d : ℝ) / fs := by
      unfold filterDelay
      rw [List.map_map, List.map_map, List.map_map]
      refine List.map_congr_left fun k hk => ?_
      have hk' := hx k (by have := List.mem_range.1 hk; omega)
      simp only [Function.comp]
      generalize omegaGrid (x.length / 2 + 1) k = w at *
      have hc : ∀ i, (x.take (x.length - d)).getD i 0 = x.getD i 0 := by
        intro i
        by_cases hi : i < x.length - d
        · rw [List.getD_eq_getElem?_getD, List.getElem?_take_of_lt hi, List.getD_eq_getElem?_getD]
        · rw [List.getD_eq_default _ _ (by rw [List.length_take]; omega), hs _ (by omega)]
      unfold delayed
      rw [C89_delay _ [1] fs d w (by rw [resp_congr _ _ hc]; exact hk') (by rw [resp_one]; exact one_ne_zero),
        delayAt_congr _ _ hc, one_mul]
    rw [e, h4]
    simp [Except.map]

/-- **C156**: in samples, smoothed analytic delays do not depend on the sampling rate. -/
theorem C156_rate (x : List ℝ) (fs fs' smoothing : ℕ) (hfs : 0 < fs) (hfs' : 0 < fs') (h2 : 2 ≤ x.length) :
    ∃ r r', groupDelay x fs true smoothing = .ok (rfftfreq x.length fs, some r) ∧
      groupDelay x fs' true smoothing = .ok (rfftfreq x.length fs', some r') ∧ r'.length = r.length ∧
      ∀ k < r.length, r'.getD k 0 * fs' = r.getD k 0 * fs := by
  have hf : ∀ fs, (rfftfreq x.length fs).length = x.length / 2 + 1 := by intro fs; simp [rfftfreq]
  have a1 : (fs : ℝ) ≠ 0 := by exact_mod_cast hfs.ne'
  have a2 : (fs' : ℝ) ≠ 0 := by exact_mod_cast hfs'.ne'
  obtain ⟨r, h3, h4⟩ := smoothed_affine smoothing
    ((filterDelay x [1] (x.length / 2 + 1) fs).map Prod.snd) (by simp [filterDelay]; omega) (fs / fs') 0
  have e : (filterDelay x [1] (x.length / 2 + 1) fs').map Prod.snd =
      ((filterDelay x [1] (x.length / 2 + 1) fs).map Prod.snd).map fun t => (fs / fs' : ℝ) * t + 0 := by
    unfold filterDelay
    rw [List.map_map, List.map_map, List.map_map]
    refine List.map_congr_left fun k _ => ?_
    simp only [Function.comp]
    unfold delayAt
    dsimp only
    field_simp
    ring
  refine ⟨r, r.map fun t => (fs / fs' : ℝ) * t + 0, ?_, ?_, by simp, ?_⟩
  · unfold groupDelay ExcessDelay.groupDelay
    rw [if_pos rfl]
    unfold groupDelayAnalytic
    dsimp only
    rw [hf, h3]
    rfl
  · unfold groupDelay ExcessDelay.groupDelay
    rw [if_pos rfl]
    unfold groupDelayAnalytic
    dsimp only
    rw [hf, e, h4]
    rfl
  · intro k hk
    rw [List.getD_eq_getElem _ _ (by simpa using hk), List.getElem_map, List.getD_eq_getElem _ _ hk]
    field_simp
    ring

/-- **C156**: impulses keep their delay under smoothing (responses of one second excluded, see C89). -/
theorem C156_impulse_partial (N fs d smoothing : ℕ) (hd : 2 * d < N) (hN : 2 ≤ N) (hfs : 0 < fs) (hne : N ≠ fs) :
    ∃ f, groupDelay ((List.range N).map fun n => if n = d then 1 else 0) fs false smoothing =
      .ok (f, some (List.replicate (N / 2 + 1) ((d : ℝ) / fs))) := by
  obtain ⟨f, g, h1, h2⟩ := C89_impulse_partial N fs d hd hN hfs hne
  obtain ⟨g', h3, h4⟩ := groupDelay_ok ((List.range N).map fun n => if n = d then 1 else 0) fs false (by simpa using hN)
  rw [List.length_map, List.length_range] at h3 h4
  have hg : g' = List.replicate (N / 2 + 1) ((d : ℝ) / fs) := by
    unfold ExcessDelay.groupDelay at h3
    rw [if_neg (by simp), h1] at h3
    simp only [Except.map, Except.ok.injEq, Prod.mk.injEq] at h3
    obtain ⟨rfl, rfl⟩ := h3
    rw [List.eq_replicate_iff]
    refine ⟨h4, fun t ht => ?_⟩
    obtain ⟨k, hk, rfl⟩ := List.mem_map.1 ht
    have := List.mem_range.1 hk
    exact h2 k (by simp [rfftfreq] at this; omega)
  refine ⟨rfftfreq N fs, ?_⟩
  unfold groupDelay
  rw [h3]
  dsimp only
  rw [hg, smoothed_constant smoothing _ _ (by omega)]
  rfl

/-- **C156**: without the latency a pure delay has the smoothed group delay zero, and delays of the response are
without effect as far as they are without smoothing (C152). -/
theorem C156_removed (fast fastReal : ℕ → ℕ) (hf : ∀ m, m ≤ fast m) (hr : ∀ m, m ≤ fastReal m)
    (fs n p smoothing : ℕ) (a : ℝ) (ha : 0 < a) (hfs : fs ≠ 0) (hp : p + 1 < n) :
    groupDelayRemoved hilbertIm fast fastReal [pulse n p a] fs true false smoothing =
      .ok (rfftfreq (fastReal (n * 8)) fs, [some (List.replicate (fastReal (n * 8) / 2 + 1) 0)]) := by
  unfold groupDelayRemoved
  rw [C152_pure_delay fast fastReal hf hr fs n p a ha hfs hp]
  have := hr (n * 8)
  dsimp only
  rw [List.mapM_cons, smoothed_constant smoothing _ _ (by omega)]
  rfl

/-- A response whose samples add up to 0 has excess group delays that are nan (C140); with smoothing it is refused. -/
theorem C156_zero_mean_refused (fast : ℕ → ℕ) (x : List ℝ) (fs : ℕ) (analytic : Bool) (smoothing : ℕ) (hfs : 0 < fs)
    (h2 : 2 ≤ x.length) (hfast : x.length ≤ fast x.length) (hsum : ∑ n ∈ Finset.range x.length, x.getD n 0 = 0)
    (h0 : smoothing ≠ 0) : excessGroupDelay fast x fs analytic smoothing = .error .valueError := by
  rw [(C156_excess fast x fs analytic smoothing _).2
    (ExcessDelay.C140_zero_mean_wrong fast x fs analytic hfs h2 hfast hsum), if_neg h0]

/-! ### Examples -/

/-- A response with an echo, delayed by two samples. -/
example (fs : ℕ) : ∃ f r, groupDelay [1, 1 / 2, 0, 0] fs true 3 = .ok (f, some r) ∧
    groupDelay [0, 0, 1, 1 / 2] fs true 3 = .ok (f, some (r.map fun t => t + ((2 : ℕ) : ℝ) / fs)) := by
  have h := C156_delay [1, 1 / 2, 0, 0] fs 3 2 (by simp) (by simp) (fun i hi => by
      simp only [List.length_cons, List.length_nil] at hi
      match i, hi with
      | 2, _ => rfl
      | 3, _ => rfl
      | i + 4, _ => rfl) fun k _ => by
    intro hc
    have h1 : resp [1, 1 / 2, 0, 0] (omegaGrid 3 k) = 1 + 1 / 2 * Complex.exp (-(Complex.I * omegaGrid 3 k)) := by
      simp [resp, Finset.sum_range_succ]
    have h3 : resp [1, 1 / 2, 0, 0] (omegaGrid 3 k) = 0 := hc
    rw [h1] at h3
    have h4 : ‖(1 : ℂ)‖ = ‖1 / 2 * Complex.exp (-(Complex.I * omegaGrid 3 k))‖ := by
      refine Eq.trans ?_ (norm_neg _)
      exact congrArg norm (eq_neg_of_add_eq_zero_left h3)
    rw [norm_mul, Complex.norm_exp] at h4
    simp at h4
  simpa [delayed] using h

/-- Hypotheses of the theorem about impulses. -/
example : ∃ f, groupDelay ((List.range 64).map fun n => if n = 5 then 1 else 0) 48000 false 3 =
    .ok (f, some (List.replicate 33 (((5 : ℕ) : ℝ) / (48000 : ℕ)))) :=
  C156_impulse_partial 64 48000 5 3 (by norm_num) (by norm_num) (by norm_num) (by norm_num)

/-- Refused: the difference of two impulses. -/
example : excessGroupDelay id [1, -1] 48000 false 3 = .error .valueError :=
  C156_zero_mean_refused id [1, -1] 48000 false 3 (by norm_num) (by simp) (by simp)
    (by simp [Finset.sum_range_succ]) (by norm_num)

end Verif.SmoothedDelay
