import Verif.Model.GroupDelayLatency
import Verif.Props.C89
import Verif.Props.C140
import Verif.Props.C151

/-!
# C152: group delays without the latency
-/

namespace Verif.Latency

open Complex Finset GroupDelay
open Verif.LFilter (getD_map_range ext_getD)

/-! ## Responses with the same samples -/

theorem sum_len (x : List ℝ) (g : ℕ → ℂ) (B : ℕ) (hB : x.length ≤ B) :
    ∑ n ∈ range x.length, (x.getD n 0 : ℂ) * g n = ∑ n ∈ range B, (x.getD n 0 : ℂ) * g n := by
  refine Finset.sum_subset (range_subset_range.2 hB) fun n _ hn => ?_
  rw [List.getD_eq_default _ _ (not_lt.1 fun h => hn (mem_range.2 h))]
  simp

theorem resp_sum (x : List ℝ) (w : ℝ) (B : ℕ) (hB : x.length ≤ B) :
    resp x w = ∑ n ∈ range B, (x.getD n 0 : ℂ) * exp (-(I * w * n)) := sum_len x _ B hB

theorem ramp_sum (x : List ℝ) (w : ℝ) (B : ℕ) (hB : x.length ≤ B) :
    ramp x w = ∑ n ∈ range B, (x.getD n 0 : ℂ) * (n * exp (-(I * w * n))) := by
  rw [← sum_len x (fun n => (n : ℂ) * exp (-(I * w * n))) B hB]
  unfold ramp
  exact sum_congr rfl fun n _ => by ring

theorem resp_congr (x y : List ℝ) (h : ∀ i, x.getD i 0 = y.getD i 0) (w : ℝ) : resp x w = resp y w := by
  rw [resp_sum x w (max x.length y.length) (le_max_left _ _),
    resp_sum y w (max x.length y.length) (le_max_right _ _)]
  exact sum_congr rfl fun n _ => by rw [h n]

theorem ramp_congr (x y : List ℝ) (h : ∀ i, x.getD i 0 = y.getD i 0) (w : ℝ) : ramp x w = ramp y w := by
  rw [ramp_sum x w (max x.length y.length) (le_max_left _ _),
    ramp_sum y w (max x.length y.length) (le_max_right _ _)]
  exact sum_congr rfl fun n _ => by rw [h n]

theorem resp_one (w : ℝ) : resp [1] w = 1 := by simp [resp]

theorem ramp_one (w : ℝ) : ramp [1] w = 0 := by simp [ramp]

theorem delayAt_fir (b : List ℝ) (fs : ℕ) (w : ℝ) (hb : resp b w ≠ 0) :
    delayAt b [1] fs w = (ramp b w / resp b w).re / fs := by
  rw [delayAt_eq b [1] fs w hb (by rw [resp_one]; exact one_ne_zero), ramp_one, zero_div]
  simp

theorem delayAt_congr (x y : List ℝ) (h : ∀ i, x.getD i 0 = y.getD i 0) (fs : ℕ) (w : ℝ) :
    delayAt x [1] fs w = delayAt y [1] fs w := by
  by_cases h0 : resp x w = 0
  · rw [C89_zero x [1] fs w h0, C89_zero y [1] fs w (by rw [← resp_congr x y h]; exact h0)]
  · rw [delayAt_fir x fs w h0, delayAt_fir y fs w (by rw [← resp_congr x y h]; exact h0),
      resp_congr x y h, ramp_congr x y h]

theorem getD_drop (x : List ℝ) (k i : ℕ) : (x.drop k).getD i 0 = x.getD (k + i) 0 := by
  simp [List.getD_eq_getElem?_getD, List.getElem?_drop]

theorem padEnd_length (L : ℕ) (x : List ℝ) : (padEnd L x).length = L := by
  simp [padEnd]
  omega

theorem padEnd_getD (L : ℕ) (x : List ℝ) (h : x.length ≤ L) (i : ℕ) : (padEnd L x).getD i 0 = x.getD i 0 := by
  unfold padEnd
  rw [List.take_of_length_le h]
  by_cases hi : i < x.length
  · rw [List.getD_append _ _ _ _ hi]
  · rw [List.getD_append_right _ _ _ _ (by omega), List.getD_eq_default x 0 (by omega)]
    by_cases h2 : i - x.length < L - x.length
    · rw [List.getD_eq_getElem _ _ (by simpa using h2)]
      simp
    · rw [List.getD_eq_default _ _ (by simpa using h2)]

theorem filterDelay_congr (x y : List ℝ) (h : ∀ i, x.getD i 0 = y.getD i 0) (len fs : ℕ) :
    (filterDelay x [1] len fs).map Prod.snd = (filterDelay y [1] len fs).map Prod.snd := by
  unfold filterDelay
  rw [List.map_map, List.map_map]
  apply List.map_congr_left
  intro k _
  exact delayAt_congr x y h fs _

/-- The channel after padding has the peak of the channel. -/
theorem argmax_padEnd (L : ℕ) (x : List ℝ) (h : x.length ≤ L) (p : ℕ) (hp : argmaxAbs x = .ok p) :
    argmaxAbs (padEnd L x) = .ok p := by
  obtain ⟨a1, a2, a3⟩ := FractionalPeak.argmax_spec x p hp
  refine argmax_unique _ _ (by rw [padEnd_length]; omega) (fun k _ => ?_) fun k hk => ?_
  · rw [padEnd_getD L x h, padEnd_getD L x h]
    by_cases hk : k < x.length
    · exact a2 k hk
    · rw [List.getD_eq_default x 0 (by omega), abs_zero]
      exact abs_nonneg _
  · rw [padEnd_getD L x h, padEnd_getD L x h]
    exact a3 k hk

/-- What the analytic computation does for a channel with the first largest sample `p`. -/
theorem analyticChannel_eq (L fs : ℕ) (x : List ℝ) (h : x.length ≤ L) (p : ℕ) (hp : argmaxAbs x = .ok p) :
    analyticChannel L fs x = .ok ((filterDelay (x.drop (p - 1)) [1] (L / 2 + 1) fs).map Prod.snd) := by
  unfold analyticChannel
  dsimp only
  rw [argmax_padEnd L x h p hp]
  dsimp only
  congr 1
  refine filterDelay_congr _ _ (fun i => ?_) _ _
  rw [getD_drop, getD_drop, padEnd_getD L x h]

/-! ## Delays -/

theorem analytic_delayed (L fs d : ℕ) (x : List ℝ) (h : x.length ≤ L) (hd : d ≤ x.length)
    (hs : EndsSilent d x) (h1 : ∃ i, |x.getD 0 0| < |x.getD i 0|) :
    analyticChannel L fs (delayed d x) = analyticChannel L fs x := by
  obtain ⟨i, hi⟩ := h1
  have hi' : i < x.length := by
    by_contra hc
    rw [List.getD_eq_default x 0 (n := i) (by omega), abs_zero] at hi
    exact absurd hi (not_lt.2 (abs_nonneg _))
  have hne : (x.map fun a => -|a|) ≠ [] := by
    intro hc
    rw [List.map_eq_nil_iff] at hc
    rw [hc] at hi'
    simp at hi'
  obtain ⟨p, hp, -⟩ := Helpers.argmin_spec (x.map fun a => -|a|) hne
  have hp' : argmaxAbs x = .ok p := hp
  obtain ⟨a1, a2, a3⟩ := FractionalPeak.argmax_spec x p hp'
  have hp0 : p ≠ 0 := by
    rintro rfl
    exact absurd (a2 i hi') (not_le.2 hi)
  have hx0 : x.getD p 0 ≠ 0 := by
    intro hc
    have := a2 i hi'
    rw [hc, abs_zero] at this
    exact absurd (lt_of_lt_of_le hi this) (not_lt.2 (abs_nonneg _))
  rw [analyticChannel_eq L fs _ (by rw [delayed_length d x hd]; exact h) (p + d)
    (argmax_delayed d x hd hs p hp' hx0), analyticChannel_eq L fs x h p hp']
  congr 1
  refine filterDelay_congr _ _ (fun j => ?_) _ _
  rw [getD_drop, getD_drop, delayed_getD d x hs, if_pos (by omega)]
  congr 1
  omega

theorem angles_padEnd (L : ℕ) (x : List ℝ) (h : x.length ≤ L) : angles L (padEnd L x) = angles L x := by
  unfold angles
  simp only [padEnd_getD L x h]

theorem headD_length (td : List (List ℝ)) (n : ℕ) (h : ∀ x ∈ td, x.length = n) (hne : td ≠ []) :
    (td.headD []).length = n := by
  cases td with
  | nil => exact absurd rfl hne
  | cons x td => exact h x (by simp)

/-- A delay of all channels by `d` samples, with nothing lost at the end, does not change the group
delays without latency: the analytic ones if no channel begins with its largest sample, the others if the
peaks of the correlations with the minimum-phase responses stay away from both ends and no bin is zero. -/
theorem C152_delay (hilb : List ℝ → List ℝ) (fast fastReal : ℕ → ℕ) (hf : ∀ m, m ≤ fast m)
    (hr : ∀ m, m ≤ fastReal m) (fs d n : ℕ) (hfs : fs ≠ 0) (hn : 0 < n) (hd : d ≤ n) (td : List (List ℝ))
    (h1 : ∀ x ∈ td, x.length = n) (h2 : ∀ x ∈ td, EndsSilent d x) (isIr : Bool) :
    ((∀ x ∈ td, ∃ i, |x.getD 0 0| < |x.getD i 0|) →
      groupDelayRemoved hilb fast fastReal (td.map (delayed d)) fs isIr true =
        groupDelayRemoved hilb fast fastReal td fs isIr true) ∧
    ((∀ x ∈ td, ∀ m, minIr fast 1 x = .ok m → Interior d (correlate m (delayed d x))) →
      (∀ x ∈ td, ∀ k ≤ fastReal (n * 8) / 2, DFT.rfft (fastReal (n * 8)) (fun n => x.getD n 0) k ≠ 0) →
      groupDelayRemoved hilb fast fastReal (td.map (delayed d)) fs isIr false =
        groupDelayRemoved hilb fast fastReal td fs isIr false) := by
  by_cases htd : td = []
  · subst htd
    exact ⟨fun _ => rfl, fun _ _ => rfl⟩
  have hdl : ∀ x ∈ td.map (delayed d), x.length = n := by
    intro x hx
    obtain ⟨y, hy, rfl⟩ := List.mem_map.1 hx
    rw [delayed_length d y (by rw [h1 y hy]; exact hd), h1 y hy]
  have e1 := headD_length td n h1 htd
  have e2 := headD_length (td.map (delayed d)) n hdl (by simpa using htd)
  have hL : n ≤ fastReal (n * 8) := le_trans (by omega) (hr _)
  constructor
  · intro h3
    unfold groupDelayRemoved
    rw [e1, e2]
    simp only [Bool.not_true, Bool.false_eq_true, if_false]
    congr 1
    rw [List.mapM_map]
    clear htd hdl e1 e2
    induction td with
    | nil => rfl
    | cons x td ih =>
      rw [List.mapM_cons, List.mapM_cons, ih (fun x hx => h1 x (by simp [hx])) (fun x hx => h2 x (by simp [hx]))
        fun x hx => h3 x (by simp [hx])]
      have hx := h1 x (by simp)
      rw [Function.comp_apply, analytic_delayed _ fs d x (by omega) (by omega) (h2 x (by simp)) (h3 x (by simp))]
  · intro h3 h4
    have hang : ∀ l : List (List ℝ), (∀ x ∈ l, x.length = n) →
        (l.map (padEnd (fastReal (n * 8)))).map (angles (fastReal (n * 8))) = l.map (angles (fastReal (n * 8))) := by
      intro l hl
      rw [List.map_map]
      apply List.map_congr_left
      intro x hx
      rw [Function.comp_apply, angles_padEnd _ x (by rw [hl x hx]; exact hL)]
    unfold groupDelayRemoved
    rw [e1, e2]
    dsimp only
    rw [hang _ hdl, hang _ h1, minPhaseLatency_delayed hilb fast hf 1 d n hn hd td h1 h2 h3]
    cases isIr with
    | false => rfl
    | true =>
      simp only [Bool.not_false, if_true, Bool.not_true, Bool.false_eq_true, if_false]
      cases minPhaseLatency hilb fast 1 td with
      | error e => rfl
      | ok l =>
        simp only [Except.map]
        rw [removeAll_delayed _ fs d n hfs hL hd td h1 h2 (fun x hx k hk => h4 x hx k (by
          unfold DFT.rfftBins at hk; omega)) l]

/-! ## Values -/

theorem resp_shift (x : List ℝ) (s : ℕ) (hs : s ≤ x.length) (h : ∀ i < s, x.getD i 0 = 0) (w : ℝ) :
    resp x w = exp (-(I * w * s)) * resp (x.drop s) w ∧
      ramp x w = exp (-(I * w * s)) * (s * resp (x.drop s) w + ramp (x.drop s) w) := by
  have hl : x.length = s + (x.length - s) := by omega
  have hd : (x.drop s).length = x.length - s := by simp
  have hsum : ∀ g : ℕ → ℂ, ∑ n ∈ range x.length, (x.getD n 0 : ℂ) * g n =
      ∑ n ∈ range (x.length - s), ((x.drop s).getD n 0 : ℂ) * g (s + n) := by
    intro g
    conv_lhs => rw [hl, sum_range_add]
    rw [Finset.sum_eq_zero fun i hi => by rw [h i (mem_range.1 hi)]; simp, zero_add]
    exact sum_congr rfl fun n _ => by rw [getD_drop]
  constructor
  · rw [resp_sum x w _ le_rfl, hsum, resp_sum (x.drop s) w _ hd.le, mul_sum]
    refine sum_congr rfl fun n _ => ?_
    rw [exp_add_index]
    ring
  · rw [ramp_sum x w _ le_rfl, hsum, ramp_sum (x.drop s) w _ hd.le, resp_sum (x.drop s) w _ hd.le, mul_sum,
      ← sum_add_distrib, mul_sum]
    refine sum_congr rfl fun n _ => ?_
    rw [exp_add_index]
    push_cast
    ring

/-- Analytic computation for a channel with its first largest sample at `p` and zeros before `p - 1`: the
group delay of the channel minus `p - 1` samples (so one sample of the latency remains). -/
theorem C152_analytic_value_partial (hilb : List ℝ → List ℝ) (fast fastReal : ℕ → ℕ)
    (hr : ∀ m, m ≤ fastReal m) (fs p : ℕ) (hfs : 0 < fs) (x : List ℝ) (isIr : Bool)
    (hp : argmaxAbs x = .ok p) (h0 : ∀ i < p - 1, x.getD i 0 = 0) :
    ∃ g, groupDelayRemoved hilb fast fastReal [x] fs isIr true =
        .ok (rfftfreq (fastReal (x.length * 8)) fs, [g]) ∧
      g.length = fastReal (x.length * 8) / 2 + 1 ∧
      ∀ k < g.length, ∀ tau, resp x (omegaGrid g.length k) ≠ 0 →
        IsGroupDelay (resp x) (omegaGrid g.length k) tau → g.getD k 0 = (tau - ((p - 1 : ℕ) : ℝ)) / fs := by
  obtain ⟨a1, -, -⟩ := FractionalPeak.argmax_spec x p hp
  have hL : x.length ≤ fastReal (x.length * 8) := le_trans (by omega) (hr _)
  refine ⟨(filterDelay (x.drop (p - 1)) [1] (fastReal (x.length * 8) / 2 + 1) fs).map Prod.snd, ?_, ?_, ?_⟩
  · unfold groupDelayRemoved
    simp only [Bool.not_true, Bool.false_eq_true, if_false, List.headD_cons]
    rw [List.mapM_cons, analyticChannel_eq _ fs x hL p hp]
    rfl
  · simp [filterDelay]
  · intro k hk tau hx ht
    have hlen : ((filterDelay (x.drop (p - 1)) [1] (fastReal (x.length * 8) / 2 + 1) fs).map Prod.snd).length =
        fastReal (x.length * 8) / 2 + 1 := by simp [filterDelay]
    rw [hlen] at hk hx ht
    have hval : ((filterDelay (x.drop (p - 1)) [1] (fastReal (x.length * 8) / 2 + 1) fs).map Prod.snd).getD k 0 =
        delayAt (x.drop (p - 1)) [1] fs (omegaGrid (fastReal (x.length * 8) / 2 + 1) k) := by
      unfold filterDelay
      rw [List.map_map, getD_map_range, if_pos hk]
      rfl
    rw [hval]
    set w := omegaGrid (fastReal (x.length * 8) / 2 + 1) k
    obtain ⟨r1, r2⟩ := resp_shift x (p - 1) (by omega) h0 w
    have hE : exp (-(I * w * ((p - 1 : ℕ) : ℂ))) ≠ 0 := Complex.exp_ne_zero _
    have hb : resp (x.drop (p - 1)) w ≠ 0 := by
      intro hc
      rw [r1, hc, mul_zero] at hx
      exact hx rfl
    have hone : (fun v => resp x v / resp [1] v) = resp x := by
      funext v
      rw [resp_one, div_one]
    have hd := (C89_filter x [1] fs hfs w hx (by rw [resp_one]; exact one_ne_zero)).2 tau (by rw [hone]; exact ht)
    have hfs' : (fs : ℝ) ≠ 0 := by exact_mod_cast hfs.ne'
    rw [delayAt_fir x fs w hx, r1, r2, mul_div_mul_left _ _ hE, add_div, mul_div_assoc, div_self hb, mul_one,
      Complex.add_re, Complex.natCast_re, div_left_inj' hfs'] at hd
    rw [delayAt_fir _ fs w hb, ← hd]
    congr 1
    ring

/-! ## A pure delay -/

theorem resp_pulse (n p : ℕ) (a : ℝ) (hp : p < n) (w : ℝ) :
    resp (pulse n p a) w = a * exp (-(I * w * p)) ∧ ramp (pulse n p a) w = a * (p * exp (-(I * w * p))) := by
  have h := fun g : ℕ → ℂ => Finset.sum_eq_single (s := range n)
    (f := fun i => (((pulse n p a).getD i 0 : ℝ) : ℂ) * g i) p
    (fun i _ hi => by rw [pulse_getD n p a hp, if_neg hi]; simp)
    fun hc => absurd (mem_range.2 hp) hc
  constructor
  · rw [resp_sum _ w n (by rw [pulse_length]), h, pulse_getD n p a hp, if_pos rfl]
  · rw [ramp_sum _ w n (by rw [pulse_length]), h fun i => (i : ℂ) * exp (-(I * w * i)),
      pulse_getD n p a hp, if_pos rfl]

theorem unwrap_zero (p : ℕ → ℝ) (h : ∀ k, p k = 0) (j : ℕ) : Spectrum.unwrap p j = 0 := by
  have : p = fun _ => 0 := funext h
  subst this
  unfold Spectrum.unwrap Spectrum.unwrapCorr
  simp [Real.pi_pos]

theorem directChannel_zero (f : List ℝ) (h : 2 ≤ f.length) :
    directChannel f (List.replicate f.length 0) = .ok (List.replicate f.length 0) := by
  have hz : ∀ k, (List.replicate f.length (0 : ℝ)).getD k 0 = 0 := by
    intro k
    by_cases hk : k < f.length
    · rw [List.getD_eq_getElem _ _ (by simpa using hk)]
      simp
    · rw [List.getD_eq_default _ _ (by simpa using hk)]
  have hall : ∀ g : ℕ → ℝ, (∀ k, g k = 0) → (List.range f.length).map g = List.replicate f.length 0 := by
    intro g hg
    rw [List.map_congr_left fun k _ => hg k, List.map_const', List.length_range]
  unfold directChannel directPhase
  rw [if_neg (by omega)]
  split_ifs
  · dsimp only
    rw [hall _ fun k => ?_]
    unfold gradient
    simp only [unwrap_zero _ hz]
    simp
  · dsimp only
    rw [hall _ fun k => ?_]
    unfold gradient
    simp only [unwrap_zero _ hz]
    simp

/-- A pure delay has group delay zero without its latency with the numerical computation. -/
theorem C152_pure_delay (fast fastReal : ℕ → ℕ) (hf : ∀ m, m ≤ fast m) (hr : ∀ m, m ≤ fastReal m)
    (fs n p : ℕ) (a : ℝ) (ha : 0 < a) (hfs : fs ≠ 0) (hp : p + 1 < n) :
    groupDelayRemoved hilbertIm fast fastReal [pulse n p a] fs true false =
      .ok (rfftfreq (fastReal (n * 8)) fs, [List.replicate (fastReal (n * 8) / 2 + 1) 0]) := by
  have hL : n * 8 ≤ fastReal (n * 8) := hr _
  unfold groupDelayRemoved
  simp only [List.headD_cons, pulse_length, Bool.not_false, if_true, Bool.not_true, Bool.false_eq_true, if_false]
  rw [minPhaseLatency_pulse fast hf 1 n p a ha hp]
  dsimp only
  have e1 : ([pulse n p a].map (padEnd (fastReal (n * 8)))).map (angles (fastReal (n * 8))) =
      [pulse n p a].map (angles (fastReal (n * 8))) := by
    simp only [List.map_cons, List.map_nil]
    rw [angles_padEnd _ _ (by rw [pulse_length]; omega)]
  rw [e1, removeAll_pulse _ fs n p a ha hfs (by omega) (by omega)]
  dsimp only
  have hlen : (rfftfreq (fastReal (n * 8)) fs).length = fastReal (n * 8) / 2 + 1 :=
    ExcessDelay.rfftfreq_length _ _
  have := directChannel_zero (rfftfreq (fastReal (n * 8)) fs) (by rw [hlen]; omega)
  rw [hlen] at this
  rw [List.mapM_cons, this]
  rfl

/-- The analytic computation does not remove the latency: of a pure delay of one sample or more it leaves one
sample at every frequency.  A pulse at the first sample has the delay zero. -/
theorem C152_one_sample_wrong (hilb : List ℝ → List ℝ) (fast fastReal : ℕ → ℕ)
    (hr : ∀ m, m ≤ fastReal m) (fs n p : ℕ) (a : ℝ) (ha : a ≠ 0) (hp : p < n) (isIr : Bool) :
    groupDelayRemoved hilb fast fastReal [pulse n p a] fs isIr true =
      .ok (rfftfreq (fastReal (n * 8)) fs,
        [List.replicate (fastReal (n * 8) / 2 + 1) (if p = 0 then 0 else 1 / (fs : ℝ))]) := by
  have hL : n * 8 ≤ fastReal (n * 8) := hr _
  unfold groupDelayRemoved
  simp only [List.headD_cons, pulse_length, Bool.not_true, Bool.false_eq_true, if_false]
  rw [List.mapM_cons, analyticChannel_eq _ fs _ (by rw [pulse_length]; omega) p (pulse_argmax n p a ha hp)]
  have h1 : (filterDelay ((pulse n p a).drop (p - 1)) [1] (fastReal (n * 8) / 2 + 1) fs).map Prod.snd =
      List.replicate (fastReal (n * 8) / 2 + 1) (if p = 0 then 0 else 1 / (fs : ℝ)) := by
    rw [filterDelay_congr _ (pulse 2 (p - (p - 1)) a) fun i => ?_]
    · unfold filterDelay
      rw [List.map_map]
      have hk : ∀ k ∈ List.range (fastReal (n * 8) / 2 + 1), (Prod.snd ∘ fun k =>
          (omegaGrid (fastReal (n * 8) / 2 + 1) k / Real.pi * (fs / 2),
            delayAt (pulse 2 (p - (p - 1)) a) [1] fs (omegaGrid (fastReal (n * 8) / 2 + 1) k))) k =
          if p = 0 then 0 else 1 / (fs : ℝ) := by
        intro k _
        simp only [Function.comp_apply]
        obtain ⟨r1, r2⟩ := resp_pulse 2 (p - (p - 1)) a (by omega) (omegaGrid (fastReal (n * 8) / 2 + 1) k)
        have ha' : (a : ℂ) ≠ 0 := by exact_mod_cast ha
        have hE := Complex.exp_ne_zero (-(I * (omegaGrid (fastReal (n * 8) / 2 + 1) k : ℝ) * ((p - (p - 1) : ℕ) : ℂ)))
        rw [delayAt_fir _ _ _ (by rw [r1]; exact mul_ne_zero ha' hE), r1, r2, mul_div_mul_left _ _ ha',
          mul_div_assoc, div_self hE, mul_one, Complex.natCast_re]
        split_ifs with h
        · subst h
          simp
        · rw [show p - (p - 1) = 1 by omega]
          simp
      rw [List.map_congr_left hk, List.map_const', List.length_range]
    · rw [getD_drop, pulse_getD n p a hp, pulse_getD 2 _ a (by omega)]
      split_ifs <;> first | rfl | omega
  rw [h1]
  rfl

/-- The analytic computation forgets what comes before the sample in front of the largest one: responses
that differ there have the same result. -/
theorem C152_forgotten (hilb : List ℝ → List ℝ) (fast fastReal : ℕ → ℕ) (hr : ∀ m, m ≤ fastReal m)
    (fs p : ℕ) (x y : List ℝ) (hl : x.length = y.length) (isIr : Bool) (hx : argmaxAbs x = .ok p)
    (hy : argmaxAbs y = .ok p) (h : ∀ i, p - 1 ≤ i → x.getD i 0 = y.getD i 0) :
    groupDelayRemoved hilb fast fastReal [x] fs isIr true =
      groupDelayRemoved hilb fast fastReal [y] fs isIr true := by
  have hL : x.length ≤ fastReal (x.length * 8) := le_trans (by omega) (hr _)
  unfold groupDelayRemoved
  simp only [List.headD_cons, Bool.not_true, Bool.false_eq_true, if_false]
  rw [← hl, List.mapM_cons, List.mapM_cons, analyticChannel_eq _ fs x hL p hx,
    analyticChannel_eq _ fs y (by rw [← hl]; exact hL) p hy]
  rw [filterDelay_congr (x.drop (p - 1)) (y.drop (p - 1)) fun i => ?_]
  rw [getD_drop, getD_drop]
  exact h _ (by omega)

/-- Two responses with the same result although their group delays at the frequency zero are two samples and
three samples and both have their peak at the last of four samples. -/
theorem C152_forgotten_wrong (hilb : List ℝ → List ℝ) (fast fastReal : ℕ → ℕ) (hr : ∀ m, m ≤ fastReal m)
    (fs : ℕ) (isIr : Bool) :
    groupDelayRemoved hilb fast fastReal [[1 / 2, 0, 0, 1]] fs isIr true =
      groupDelayRemoved hilb fast fastReal [[0, 0, 0, 1]] fs isIr true ∧
    IsGroupDelay (resp [1 / 2, 0, 0, 1]) 0 2 ∧ IsGroupDelay (resp [0, 0, 0, 1]) 0 3 := by
  have harg : ∀ c : ℝ, 0 ≤ c → c < 1 → argmaxAbs [c, 0, 0, 1] = .ok 3 := by
    intro c h1 h2
    refine argmax_unique _ _ (by simp) (fun k hk => ?_) fun k hk => ?_
    · simp only [List.length_cons, List.length_nil] at hk
      interval_cases k <;> simp [abs_of_nonneg h1, h2.le]
    · interval_cases k <;> simp [abs_of_nonneg h1, h2]
  refine ⟨?_, ?_, ?_⟩
  · refine C152_forgotten hilb fast fastReal hr fs 3 [1 / 2, 0, 0, 1] [0, 0, 0, 1] rfl isIr
      (harg _ (by norm_num) (by norm_num)) (harg _ le_rfl (by norm_num)) fun i hi => ?_
    obtain ⟨j, rfl⟩ : ∃ j, i = j + 2 := ⟨i - 2, by omega⟩
    simp
  · have h0 : resp [1 / 2, 0, 0, 1] 0 = 3 / 2 := by
      simp [resp, Finset.sum_range_succ]
      norm_num
    have h1 : ramp [1 / 2, 0, 0, 1] 0 = 3 := by simp [ramp, Finset.sum_range_succ]
    have := groupDelay_of_deriv (resp [1 / 2, 0, 0, 1]) 0 _ (resp_deriv _ 0) (by rw [h0]; norm_num)
    rw [h0, h1] at this
    convert this using 1
    rw [show (-I * 3 / (3 / 2) : ℂ) = ((-2 : ℝ) : ℂ) * I by push_cast; ring]
    simp
  · have h0 : resp [0, 0, 0, 1] 0 = 1 := by simp [resp, Finset.sum_range_succ]
    have h1 : ramp [0, 0, 0, 1] 0 = 3 := by simp [ramp, Finset.sum_range_succ]
    have := groupDelay_of_deriv (resp [0, 0, 0, 1]) 0 _ (resp_deriv _ 0) (by rw [h0]; norm_num)
    rw [h0, h1] at this
    convert this using 1
    simp

/-- Only the numerical computation refuses signals that are not impulse responses. -/
theorem C152_refused (hilb : List ℝ → List ℝ) (fast fastReal : ℕ → ℕ) (td : List (List ℝ)) (fs : ℕ) :
    groupDelayRemoved hilb fast fastReal td fs false false = .error .assertionError ∧
    groupDelayRemoved hilb fast fastReal td fs false true =
      groupDelayRemoved hilb fast fastReal td fs true true := ⟨rfl, rfl⟩

/-- Concrete case of the theorem about delays: an impulse response with two samples. -/
example (hilb : List ℝ → List ℝ) (fast fastReal : ℕ → ℕ) (hf : ∀ m, m ≤ fast m) (hr : ∀ m, m ≤ fastReal m) :
    groupDelayRemoved hilb fast fastReal [[0, 1, 2, 0]] 48000 true true =
      groupDelayRemoved hilb fast fastReal [[1, 2, 0, 0]] 48000 true true := by
  refine (C152_delay hilb fast fastReal hf hr 48000 1 4 (by norm_num) (by norm_num) (by norm_num)
    [[1, 2, 0, 0]] (by simp) ?_ true).1 ?_
  · intro x hx i hi
    rw [List.mem_singleton.1 hx] at hi ⊢
    simp only [List.length_cons, List.length_nil] at hi
    obtain ⟨j, rfl⟩ : ∃ j, i = j + 3 := ⟨i - 3, by omega⟩
    cases j <;> simp
  · intro x hx
    rw [List.mem_singleton.1 hx]
    exact ⟨1, by simp⟩

/-- Concrete case of the theorem about values. -/
example : argmaxAbs [0, 0, 1, 2, (1 : ℝ)] = .ok 3 ∧ ∀ i < 3 - 1, [0, 0, 1, 2, (1 : ℝ)].getD i 0 = 0 := by
  refine ⟨argmax_unique _ _ (by simp) (fun k hk => ?_) fun k hk => ?_, fun i hi => ?_⟩
  · simp only [List.length_cons, List.length_nil] at hk
    interval_cases k <;> simp
  · interval_cases k <;> simp
  · interval_cases i <;> simp

end Verif.Latency
