import Verif.Model.ExcessDelayLatency
import Verif.Props.C152
import Verif.Props.C132

/-!
# C140: excess group delays without the latency
-/

namespace Verif.ExcessDelay

open Latency GroupDelay MinimumPhase DFT
open Verif.LFilter (getD_map_range ext_getD)

/-- **C140**: the minimum group delay of a delayed response (nothing lost at the end) is the one of the response. -/
theorem C140_minimum_delay (fast : ℕ → ℕ) (hf : ∀ m, m ≤ fast m) (x : List ℝ) (padding fs d : ℕ)
    (hd : d ≤ x.length) (hs : EndsSilent d x) :
    minimumGroupDelay fast (delayed d x) padding fs = minimumGroupDelay fast x padding fs := by
  refine C140_only_magnitude fast _ _ padding fs (delayed_length d x hd) fun k _ => ?_
  have e1 : fftLength fast (delayed d x) padding = fftLength fast x padding := by
    unfold fftLength
    rw [delayed_length d x hd]
  rw [e1, rfft_delayed (fftLength fast x padding) d x (le_trans (le_max_right _ _) (hf _)) hd hs, norm_mul, norm_e, one_mul]

/-- **C140**, without the latency: a delay of all channels by `d` samples, with nothing lost at the end, does not
change the excess group delays (under the conditions of C152). -/
theorem C140_removed_delay (hilb : List ℝ → List ℝ) (fast fastReal : ℕ → ℕ) (hf : ∀ m, m ≤ fast m)
    (hr : ∀ m, m ≤ fastReal m) (fs d n : ℕ) (hfs : fs ≠ 0) (hn : 0 < n) (hd : d ≤ n) (td : List (List ℝ))
    (h1 : ∀ x ∈ td, x.length = n) (h2 : ∀ x ∈ td, EndsSilent d x) :
    ((∀ x ∈ td, ∃ i, |x.getD 0 0| < |x.getD i 0|) →
      excessGroupDelayRemoved hilb fast fastReal (td.map (delayed d)) fs true =
        excessGroupDelayRemoved hilb fast fastReal td fs true) ∧
    ((∀ x ∈ td, ∀ m, minIr fast 1 x = .ok m → Interior d (correlate m (delayed d x))) →
      (∀ x ∈ td, ∀ k ≤ fastReal (n * 8) / 2, DFT.rfft (fastReal (n * 8)) (fun n => x.getD n 0) k ≠ 0) →
      excessGroupDelayRemoved hilb fast fastReal (td.map (delayed d)) fs false =
        excessGroupDelayRemoved hilb fast fastReal td fs false) := by
  have hm : ((td.map (delayed d)).mapM fun x => minimumGroupDelay fast x 1 fs) =
      td.mapM fun x => minimumGroupDelay fast x 1 fs := by
    clear hn
    induction td with
    | nil => rfl
    | cons x td ih =>
      rw [List.map_cons, List.mapM_cons, List.mapM_cons,
        C140_minimum_delay fast hf x 1 fs d (by rw [h1 x (by simp)]; exact hd) (h2 x (by simp)),
        ih (fun y hy => h1 y (by simp [hy])) fun y hy => h2 y (by simp [hy])]
  obtain ⟨a, b⟩ := C152_delay hilb fast fastReal hf hr fs d n hfs hn hd td h1 h2 true
  refine ⟨fun h => ?_, fun h h' => ?_⟩
  · unfold excessGroupDelayRemoved
    rw [hm, a h]
  · unfold excessGroupDelayRemoved
    rw [hm, b h h']

/-! ## Values -/

theorem removed_freq (hilb : List ℝ → List ℝ) (fast fastReal : ℕ → ℕ) (td : List (List ℝ)) (fs : ℕ)
    (isIr analytic : Bool) (f : List ℝ) (gds : List (List ℝ))
    (h : groupDelayRemoved hilb fast fastReal td fs isIr analytic = .ok (f, gds)) :
    f = rfftfreq (fastReal ((td.headD []).length * 8)) fs := by
  have key : ∀ (r : Except Err (List (List ℝ))) (f' : List ℝ), r.map (fun g => (f', g)) = .ok (f, gds) → f = f' := by
    intro r f' h
    cases r with
    | error e => cases h
    | ok g =>
      simp only [Except.map, Except.ok.injEq, Prod.mk.injEq] at h
      exact h.1.symm
  unfold groupDelayRemoved at h
  dsimp only at h
  split at h
  · split at h
    · cases h
    · split at h
      · cases h
      · split at h
        · cases h
        · exact key _ _ h
  · exact key _ _ h

/-- **C140**, without the latency: in every channel the excess group delay is the group delay without latency
(C152) minus the minimum group delay, the former taken from the polygon through its values when the numbers of bins
differ; it is nan where the minimum group delay is. -/
theorem C140_removed_values (hilb : List ℝ → List ℝ) (fast fastReal : ℕ → ℕ) (hr : ∀ m, m ≤ fastReal m)
    (td : List (List ℝ)) (fs : ℕ) (hfs : 0 < fs) (h2 : 0 < (td.headD []).length) (analytic : Bool) (g : List ℝ)
    (es : List (Option (List ℝ)))
    (h : excessGroupDelayRemoved hilb fast fastReal td fs analytic = .ok (g, es)) :
    ∃ f gds, groupDelayRemoved hilb fast fastReal td fs true analytic = .ok (f, gds) ∧
      es.length = min td.length gds.length ∧
      ∀ c < es.length, ∃ g' m, minimumGroupDelay fast (td.getD c []) 1 fs = .ok (g', m) ∧
        (m = none → es.getD c none = none) ∧
        ∀ mm, m = some mm → ∃ e, es.getD c none = some e ∧ e.length = g.length ∧ ∀ k < g.length,
          (f.length = g.length → e.getD k 0 = (gds.getD c []).getD k 0 - mm.getD k 0) ∧
          (f.length ≠ g.length → f.getD 0 0 ≤ g.getD k 0 → g.getD k 0 ≤ f.getD (f.length - 1) 0 →
            ∃ v, OnPolygon f (gds.getD c []) (g.getD k 0) v ∧ e.getD k 0 = v - mm.getD k 0) := by
  unfold excessGroupDelayRemoved at h
  split at h
  · cases h
  rename_i ms hms
  dsimp only at h
  split at h
  · cases h
  rename_i f gds hgd
  split at h
  · cases h
  rename_i vs hvs
  simp only [Except.ok.injEq, Prod.mk.injEq] at h
  obtain ⟨hg, hes⟩ := h
  rw [hg] at hvs hes
  obtain ⟨l1, s1⟩ := Room.mapM_spec _ _ _ hms
  obtain ⟨l2, s2⟩ := Room.mapM_spec _ _ _ hvs
  have hlen : es.length = min td.length gds.length := by
    rw [← hes, List.length_zipWith, List.length_map, l1, l2]
  refine ⟨f, gds, hgd, hlen, fun c hc => ?_⟩
  have c1 : c < td.length := by omega
  have c2 : c < gds.length := by omega
  have e1 := s1 c c1 (by omega)
  have e2 := s2 c c2 (by omega)
  have ht : td.getD c [] = td[c] := List.getD_eq_getElem _ _ c1
  have hgc : gds.getD c [] = gds[c] := List.getD_eq_getElem _ _ c2
  have hec : es.getD c none = (ms[c]'(by omega)).2.map fun (m : List ℝ) =>
      (List.range g.length).map fun (k : ℕ) => (vs[c]'(by omega)).getD k 0 - m.getD k 0 := by
    rw [List.getD_eq_getElem _ _ hc]
    simp only [← hes, List.getElem_zipWith, List.getElem_map]
  refine ⟨(ms[c]'(by omega)).1, (ms[c]'(by omega)).2, by rw [ht]; exact e1, fun hm => ?_, fun mm hm => ?_⟩
  · rw [hec, hm]
    rfl
  · rw [hec, hm]
    refine ⟨_, rfl, by simp, fun k hk => ?_⟩
    rw [getD_map_range, if_pos hk, hgc]
    unfold aligned at e2
    constructor
    · intro hfl
      rw [if_neg (by simpa using hfl)] at e2
      rw [Except.ok.inj e2]
    · intro hfl a1 a2
      rw [if_pos hfl] at e2
      have hfr := removed_freq hilb fast fastReal td fs true analytic f gds hgd
      have hL := hr ((td.headD []).length * 8)
      have hf2 : 2 ≤ f.length := by
        rw [hfr, rfftfreq_length]
        omega
      have hinc : Increasing f := by
        rw [hfr]
        exact rfftfreq_increasing _ fs (by omega) hfs
      have hfg : f.length = gds[c].length := by
        by_contra hne
        unfold InterpolateFr.interpolateFr at e2
        simp only [Option.map_none, InterpolateFr.convert] at e2
        rw [if_pos hne] at e2
        cases e2
      obtain ⟨r, hr', -, hrv⟩ := InterpolateFr.C137_values InterpolateFr.Documented.none f gds[c] g hinc hfg hf2
        (by intro h; cases h)
      rw [e2] at hr'
      obtain ⟨v, hv, ev⟩ := (hrv k hk).1 a1 a2
      rw [List.map_id'] at hv
      exact ⟨v, hv, by rw [Except.ok.inj hr', ev]⟩

/-! ## Impulses -/

theorem interpolate_const (f target : List ℝ) (c : ℝ) (h2 : 2 ≤ f.length) :
    InterpolateFr.interpolateFr f (List.replicate f.length c) target none =
      .ok (target.map fun q => if f.getD 0 0 ≤ q ∧ q ≤ f.getD (f.length - 1) 0 then c else 0) := by
  unfold InterpolateFr.interpolateFr
  simp only [Option.map_none, InterpolateFr.convert, List.length_replicate, ne_eq, not_true_eq_false, if_false]
  rw [if_neg (by omega)]
  congr 1
  apply List.map_congr_left
  intro q _
  unfold InterpolateFr.back InterpolateFr.interp1d
  dsimp only
  by_cases h1 : q < f.getD 0 0
  · rw [if_pos h1, if_neg (fun h => absurd h.1 (not_le.2 h1))]
  · rw [if_neg h1]
    by_cases h3 : f.getD (f.length - 1) 0 < q
    · rw [if_pos h3, if_neg (fun h => absurd h.2 (not_le.2 h3))]
    · rw [if_neg h3, if_pos ⟨not_lt.1 h1, not_lt.1 h3⟩]
      unfold OctaveSmoothing.interpLinear
      dsimp only
      have hv : ∀ i < f.length, (List.replicate f.length c).getD i 0 = c := by
        intro i hi
        rw [List.getD_eq_getElem _ _ (by simpa using hi)]
        simp
      rw [hv _ (by omega), hv _ (by omega)]
      simp

theorem aligned_const (f g : List ℝ) (c : ℝ) (h2 : 2 ≤ f.length) :
    ∃ v, aligned f g (List.replicate f.length c) = .ok v ∧
      ∀ k < g.length, v.getD k 0 = if f.length = g.length ∨
        f.getD 0 0 ≤ g.getD k 0 ∧ g.getD k 0 ≤ f.getD (f.length - 1) 0 then c else 0 := by
  unfold aligned
  by_cases h : f.length = g.length
  · rw [if_neg (by simpa using h)]
    refine ⟨_, rfl, fun k hk => ?_⟩
    rw [if_pos (Or.inl h), List.getD_eq_getElem _ _ (by simpa using (by omega : k < f.length))]
    simp
  · rw [if_pos h, interpolate_const f g c h2]
    refine ⟨_, rfl, fun k hk => ?_⟩
    rw [List.getD_eq_getElem _ _ (by simpa using hk), List.getElem_map, ← List.getD_eq_getElem g 0 hk]
    simp only [h, false_or]

theorem removed_impulse (hilb : List ℝ → List ℝ) (fast fastReal : ℕ → ℕ) (hf : ∀ m, m ≤ fast m)
    (hr : ∀ m, m ≤ fastReal m) (fs n p : ℕ) (c : ℝ) (analytic : Bool) (hfs : 0 < fs) (h2 : 2 ≤ n) (hp : p < n)
    (hg : groupDelayRemoved hilb fast fastReal [impulse n p] fs true analytic =
      .ok (rfftfreq (fastReal (n * 8)) fs, [List.replicate (fastReal (n * 8) / 2 + 1) c])) :
    ∃ e, excessGroupDelayRemoved hilb fast fastReal [impulse n p] fs analytic =
        .ok (rfftfreq (fast n) fs, [some e]) ∧ e.length = fast n / 2 + 1 ∧
      ∀ k ≤ fast n / 2, e.getD k 0 =
        if fastReal (n * 8) / 2 = fast n / 2 ∨
          (k : ℝ) * fs / fast n ≤ (fastReal (n * 8) / 2 : ℕ) * fs / fastReal (n * 8) then c else 0 := by
  have hfn := hf n
  have hrn := hr (n * 8)
  have hx : ∀ k < fast (impulse n p).length, rfft (fast (impulse n p).length)
      (fun i => (impulse n p).getD i 0) k ≠ 0 := by
    intro k _
    rw [impulse_length, impulse_rfft n p _ hp hfn]
    intro h
    have := norm_e (fast n) (-(k * p))
    rw [h, norm_zero] at this
    norm_num at this
  obtain ⟨m, -, -, hm, -⟩ := C140_excess fast (impulse n p) fs false hfs
    (by rw [impulse_length]; exact h2) (by rw [impulse_length]; exact hfn) hx
  rw [impulse_length] at hm
  have hm0 := impulse_minimum fast n p fs hfs h2 hp hfn m hm
  have hlen : (rfftfreq (fastReal (n * 8)) fs).length = fastReal (n * 8) / 2 + 1 := rfftfreq_length _ _
  obtain ⟨v, hv, hvk⟩ := aligned_const (rfftfreq (fastReal (n * 8)) fs) (rfftfreq (fast n) fs) c (by rw [hlen]; omega)
  rw [hlen] at hv hvk
  refine ⟨(List.range (rfftfreq (fast n) fs).length).map fun (k : ℕ) => v.getD k 0 - m.getD k 0, ?_, ?_, ?_⟩
  · unfold excessGroupDelayRemoved
    simp only [List.mapM_cons, List.mapM_nil, hm, bind, Except.bind, pure, Except.pure, List.headD_cons, hg, hv,
      List.map_cons, List.map_nil, List.zipWith_cons_cons, List.zipWith_nil_left, Option.map_some]
  · rw [List.length_map, List.length_range, rfftfreq_length]
  · intro k hk
    rw [rfftfreq_length, getD_map_range, if_pos (by omega), hm0 k hk, sub_zero,
      hvk k (by rw [rfftfreq_length]; omega), rfftfreq_length, Nat.add_sub_cancel,
      rfftfreq_getD _ fs k hk, rfftfreq_getD _ fs _ le_rfl, rfftfreq_getD _ fs 0 (by omega)]
    have h0 : ((0 : ℕ) : ℝ) * fs / fastReal (n * 8) ≤ k * fs / fast n := by
      simp
      positivity
    simp only [h0, true_and, Nat.add_right_cancel_iff]

/-- **C140**, without the latency: the excess group delay of an impulse anywhere (but at the last sample) is 0 at
every frequency. -/
theorem C140_removed_impulse (fast fastReal : ℕ → ℕ) (hf : ∀ m, m ≤ fast m) (hr : ∀ m, m ≤ fastReal m)
    (fs n p : ℕ) (hfs : 0 < fs) (hp : p + 1 < n) :
    ∃ e, excessGroupDelayRemoved hilbertIm fast fastReal [impulse n p] fs false =
        .ok (rfftfreq (fast n) fs, [some e]) ∧ e.length = fast n / 2 + 1 ∧ ∀ k ≤ fast n / 2, e.getD k 0 = 0 := by
  obtain ⟨e, h1, h2, h3⟩ := removed_impulse hilbertIm fast fastReal hf hr fs n p 0 false hfs (by omega) (by omega)
    (C152_pure_delay fast fastReal hf hr fs n p 1 one_pos hfs.ne' hp)
  refine ⟨e, h1, h2, fun k hk => ?_⟩
  rw [h3 k hk]
  simp

/-- **C140**, not so with the analytic computation: an impulse after the first sample keeps an excess group delay of
one sample, at every frequency up to the last one of the group delay. -/
theorem C140_removed_analytic_wrong (hilb : List ℝ → List ℝ) (fast fastReal : ℕ → ℕ) (hf : ∀ m, m ≤ fast m)
    (hr : ∀ m, m ≤ fastReal m) (fs n p : ℕ) (hfs : 0 < fs) (h0 : 0 < p) (hp : p < n) :
    ∃ e, excessGroupDelayRemoved hilb fast fastReal [impulse n p] fs true =
        .ok (rfftfreq (fast n) fs, [some e]) ∧ e.getD 0 0 = 1 / fs ∧
      ∀ k ≤ fast n / 2, (k : ℝ) * fs / fast n ≤ (fastReal (n * 8) / 2 : ℕ) * fs / fastReal (n * 8) →
        e.getD k 0 = 1 / fs := by
  have hg := C152_one_sample_wrong hilb fast fastReal hr fs n p 1 one_ne_zero hp true
  rw [if_neg (by omega)] at hg
  obtain ⟨e, h1, -, h3⟩ := removed_impulse hilb fast fastReal hf hr fs n p (1 / fs) true hfs (by omega) hp hg
  refine ⟨e, h1, ?_, fun k hk hle => ?_⟩
  · rw [h3 0 (by omega), if_pos (Or.inr ?_)]
    simp
    positivity
  · rw [h3 k hk, if_pos (Or.inr hle)]

/-- An impulse at the third of eight samples. -/
example : ∃ e, excessGroupDelayRemoved hilbertIm id id [impulse 8 2] 48000 false =
    .ok (rfftfreq 8 48000, [some e]) ∧ e.length = 5 ∧ ∀ k ≤ 4, e.getD k 0 = 0 :=
  C140_removed_impulse id id (fun _ => le_rfl) (fun _ => le_rfl) 48000 8 2 (by norm_num) (by norm_num)

end Verif.ExcessDelay
