import Verif.Model.FractionalPeak
import Verif.Props.C45
import Verif.Props.C130
import Verif.Props.C132
import Mathlib.Tactic.Linarith
import Mathlib.Tactic.FieldSimp

/-!
# C135: positions of peaks between samples
-/

namespace Verif.FractionalPeak

variable {K : Type} [Field K] [LinearOrder K] [IsStrictOrderedRing K]

/-- `v` is the position of a peak whose largest sample is `p`: the sample itself, or the zero of the
straight line through the values of `h` at two neighbouring samples of which one is `p`. -/
def PeakAt (h : ℕ → K) (p : ℕ) (v : K) : Prop :=
  v = p ∨ ∃ q : ℕ, (q = p ∨ q + 1 = p) ∧ ∃ t : K, 0 ≤ t ∧ t ≤ 1 ∧ v = q + t ∧
    (1 - t) * h q + t * h (q + 1) = 0

theorem PeakAt.near {h : ℕ → K} {p : ℕ} {v : K} (hv : PeakAt h p v) : |v - p| ≤ 1 := by
  rcases hv with rfl | ⟨q, hq, t, h0, h1, rfl, -⟩
  · simp
  · rcases hq with rfl | hq
    · rw [abs_le]
      constructor <;> linarith
    · rw [← hq, abs_le]
      push_cast
      constructor <;> linarith

omit [IsStrictOrderedRing K] in
/-- One channel: the position found is the sample or a zero next to it. -/
theorem refine_spec (h : List K) (d : ℕ) (v : K) (hv : refine h d = .ok v) :
    d + 1 < h.length ∧ PeakAt (fun i => h.getD i 0) d v := by
  unfold refine at hv
  by_cases hl : h.length ≤ d + 1
  · rw [if_pos hl] at hv
    exact absurd hv (by simp)
  rw [if_neg hl] at hv
  refine ⟨by omega, ?_⟩
  dsimp only at hv
  by_cases hb : 0 < h.getD d 0 * h.getD (d + 1) 0
  · simp only [hb, decide_true, if_true] at hv
    have hint : (((d : ℤ) - 1 : ℤ) : K) + 1 = d := by
      push_cast
      ring
    split_ifs at hv with h1 h2 h3 h4
    · left
      rw [← Except.ok.inj hv, hint]
    · left
      rw [← Except.ok.inj hv, hint]
    · right
      obtain ⟨q, rfl⟩ : ∃ q, d = q + 1 := ⟨d - 1, by omega⟩
      have e0 : entry h ((q + 1 : ℕ) - 1 : ℤ) = h.getD q 0 := by
        unfold entry
        rw [if_neg (by omega)]
        congr 1
        omega
      have e1 : entry h ((q + 1 : ℕ) - 1 + 1 : ℤ) = h.getD (q + 1) 0 := by
        unfold entry
        rw [if_neg (by omega)]
        congr 1
        omega
      rw [e0, e1] at hv h3 h4
      refine ⟨q, Or.inr rfl, _, h4.2, h4.1, ?_, ?_⟩
      · rw [← Except.ok.inj hv]
        push_cast
        ring
      · field_simp
        ring
    · left
      rw [← Except.ok.inj hv, hint]
  · simp only [hb, decide_false, Bool.false_eq_true, if_false, sub_zero, add_zero] at hv
    have e0 : entry h (d : ℤ) = h.getD d 0 := by
      unfold entry
      rw [if_neg (by omega)]
      congr 1
    have e1 : entry h ((d : ℤ) + 1) = h.getD (d + 1) 0 := by
      unfold entry
      rw [if_neg (by omega)]
      congr 1
    rw [e0, e1, if_neg hb, if_neg (by omega)] at hv
    split_ifs at hv with h3 h4
    · left
      rw [← Except.ok.inj hv, Int.cast_natCast]
    · right
      refine ⟨d, Or.inl rfl, _, h4.2, h4.1, ?_, ?_⟩
      · rw [← Except.ok.inj hv, Int.cast_natCast]
      · field_simp
        ring
    · left
      rw [← Except.ok.inj hv, Int.cast_natCast]

/-- Where the analytic part changes its sign after the largest sample, the position is the zero of
the line through the two values. -/
theorem C135_crossing (h : List K) (d : ℕ) (hd : d + 1 < h.length) (h1 : h.getD d 0 * h.getD (d + 1) 0 ≤ 0)
    (h2 : h.getD d 0 ≠ h.getD (d + 1) 0) :
    refine h d = .ok (d + h.getD d 0 / (h.getD d 0 - h.getD (d + 1) 0)) := by
  unfold refine
  rw [if_neg (by omega)]
  dsimp only
  simp only [not_lt.mpr h1, decide_false, Bool.false_eq_true, if_false, sub_zero, add_zero]
  have e0 : entry h (d : ℤ) = h.getD d 0 := by
    unfold entry
    rw [if_neg (by omega)]
    congr 1
  have e1 : entry h ((d : ℤ) + 1) = h.getD (d + 1) 0 := by
    unfold entry
    rw [if_neg (by omega)]
    congr 1
  rw [e0, e1, if_neg (not_lt.mpr h1), if_neg (by omega), if_neg (sub_ne_zero.mpr h2.symm)]
  set a := h.getD d 0
  set b := h.getD (d + 1) 0
  have hr : -a / (b - a) = a / (a - b) := by
    rw [← neg_sub a b, neg_div_neg_eq]
  rw [hr, if_pos, Int.cast_natCast]
  rcases lt_trichotomy a b with hab | hab | hab
  · have hn : a - b < 0 := sub_neg.mpr hab
    have ha : a ≤ 0 := by
      by_contra hc
      push Not at hc
      nlinarith [mul_pos hc (hc.trans hab)]
    have hb : 0 ≤ b := by
      by_contra hc
      push Not at hc
      nlinarith [mul_pos_of_neg_of_neg (hab.trans hc) hc]
    exact ⟨by rw [div_le_one_of_neg hn]; linarith, div_nonneg_of_nonpos ha hn.le⟩
  · exact absurd hab h2
  · have hn : 0 < a - b := sub_pos.mpr hab
    have ha : 0 ≤ a := by
      by_contra hc
      push Not at hc
      nlinarith [mul_pos_of_neg_of_neg hc (hab.trans hc)]
    have hb : b ≤ 0 := by
      by_contra hc
      push Not at hc
      nlinarith [mul_pos (hc.trans hab) hc]
    exact ⟨by rw [div_le_one hn]; linarith, div_nonneg ha hn.le⟩

theorem foldr_min_le (l : List ℕ) (b : ℕ) (a : ℕ) (ha : a ∈ l) : l.foldr min b ≤ a := by
  induction l with
  | nil => simp at ha
  | cons x l ih =>
    rw [List.foldr_cons]
    rcases List.mem_cons.mp ha with rfl | ha
    · exact min_le_left _ _
    · exact (min_le_right _ _).trans (ih ha)

theorem argmax_spec (x : List K) (p : ℕ) (h : Latency.argmaxAbs x = .ok p) :
    p < x.length ∧ (∀ k < x.length, |x.getD k 0| ≤ |x.getD p 0|) ∧ ∀ k < p, |x.getD k 0| < |x.getD p 0| := by
  unfold Latency.argmaxAbs at h
  have hne : (x.map fun a => -|a|) ≠ [] := by
    intro h0
    rw [h0] at h
    cases h
  obtain ⟨k, hk, h1, h2, h3⟩ := Helpers.argmin_spec (x.map fun a => -|a|) hne
  rw [hk] at h
  obtain rfl := Except.ok.inj h
  rw [List.length_map] at h1 h2
  have hg : ∀ i < x.length, (x.map fun a => -|a|).getD i 0 = -|x.getD i 0| := by
    intro i hi
    rw [List.getD_eq_getElem _ _ (by simpa using hi), List.getD_eq_getElem _ _ hi, List.getElem_map]
  refine ⟨h1, fun i hi => ?_, fun i hi => ?_⟩
  · have := h2 i hi
    rw [hg _ h1, hg _ hi] at this
    linarith
  · have := h3 i hi
    rw [hg _ h1, hg _ (by omega)] at this
    linarith

omit [IsStrictOrderedRing K] in
/-- All channels: the position of each channel belongs to its own first largest sample; the samples
cut away at the start are counted again. -/
theorem C135_peaks (hilb : List K → List K) (x : List (List K)) (r : List K) (h : peaks hilb x = .ok r) :
    r.length = x.length ∧ ∃ start last : ℕ, ∀ c (hc : c < x.length) (hr : c < r.length),
      ∃ p, Latency.argmaxAbs x[c] = .ok p ∧ start ≤ p ∧ p ≤ last ∧
        PeakAt (fun i => (hilb (crop start last x[c])).getD (i - start) 0) p r[c] := by
  unfold peaks at h
  cases hds : x.mapM Latency.argmaxAbs with
  | error e =>
    rw [hds] at h
    cases h
  | ok ds =>
    rw [hds] at h
    obtain ⟨l1, s1⟩ := Room.mapM_spec _ _ _ hds
    simp only [bind, Except.bind] at h
    by_cases h0 : ds = []
    · rw [if_pos h0] at h
      cases h
    · rw [if_neg h0] at h
      simp only [pure, Except.pure] at h
      obtain ⟨l2, s2⟩ := Room.mapM_spec _ _ _ h
      rw [List.length_range] at l2
      refine ⟨l2, ds.foldr min (ds.headD 0) - 200, ds.foldr max 0, fun c hc hr => ?_⟩
      have hcd : c < ds.length := by omega
      refine ⟨ds[c], s1 c hc hcd, ?_, ?_, ?_⟩
      · have := foldr_min_le ds (ds.headD 0) ds[c] (List.getElem_mem hcd)
        omega
      · have : ∀ (l : List ℕ) (a : ℕ), a ∈ l → a ≤ l.foldr max 0 := by
          intro l
          induction l with
          | nil => intro a ha; simp at ha
          | cons b l ih =>
            intro a ha
            rw [List.foldr_cons]
            rcases List.mem_cons.mp ha with rfl | ha
            · exact le_max_left _ _
            · exact (ih a ha).trans (le_max_right _ _)
        exact this ds _ (List.getElem_mem hcd)
      · have hs := s2 c (by rw [List.length_range]; exact hc) hr
        have e5 : x.getD c [] = x[c] := List.getD_eq_getElem _ _ hc
        have e6 : ds.getD c 0 = ds[c] := List.getD_eq_getElem _ _ hcd
        simp only [List.getElem_range, e5, e6] at hs
        set start := ds.foldr min (ds.headD 0) - 200 with hst
        have hle : start ≤ ds[c] := by
          have := foldr_min_le ds (ds.headD 0) ds[c] (List.getElem_mem hcd)
          omega
        cases hrf : refine (hilb (crop start (ds.foldr max 0) (x[c]'hc))) ((ds[c]'hcd) - start) with
        | error e =>
          rw [hrf] at hs
          cases hs
        | ok v =>
          rw [hrf] at hs
          obtain ⟨-, hp⟩ := refine_spec _ _ _ hrf
          rw [← Except.ok.inj hs]
          rcases hp with hp | ⟨q, hq, t, t0, t1, hv, hz⟩
          · left
            rw [hp, Nat.cast_sub hle]
            ring
          · right
            refine ⟨q + start, by omega, t, t0, t1, ?_, ?_⟩
            · rw [hv]
              push_cast
              ring
            · have e1 : q + start - start = q := by omega
              have e2 : q + start + 1 - start = q + 1 := by omega
              simp only [e1, e2]
              exact hz

/-- The position is at most one sample away from the largest sample. -/
theorem C135_near (hilb : List K → List K) (x : List (List K)) (r : List K) (h : peaks hilb x = .ok r)
    (c : ℕ) (hc : c < x.length) : ∃ p : ℕ, p < (x[c]).length ∧
      (∀ k < (x[c]).length, |(x[c]).getD k 0| ≤ |(x[c]).getD p 0|) ∧ |r.getD c 0 - p| ≤ 1 := by
  obtain ⟨h1, start, last, h2⟩ := C135_peaks hilb x r h
  obtain ⟨p, hp, -, -, hpk⟩ := h2 c hc (by omega)
  obtain ⟨a1, a2, -⟩ := argmax_spec _ _ hp
  exact ⟨p, a1, a2, by rw [List.getD_eq_getElem _ _ (by omega)]; exact hpk.near⟩

/-- The fractional latency of every channel is at most one sample away from the whole latency, for
all signals for which both are found. -/
theorem C135_latency (hilb : List K → List K) (td1 td2 : List (List K)) (r : List K)
    (h : fractional2 hilb td1 td2 = .ok r) (hl : ∀ s ∈ td1, s.length = (td1.getD 0 []).length)
    (hn : td1.length = td2.length) :
    r.length = td2.length ∧ ∀ c < td2.length, ∃ m : ℤ,
      Latency.latencyPair (td1.getD c []) (td2.getD c []) = .ok m ∧ |r.getD c 0 - m| ≤ 1 := by
  unfold fractional2 at h
  cases hp : peaks hilb ((List.range td2.length).map fun c =>
      Latency.correlate (td2.getD c []) (td1.getD c [])) with
  | error e =>
    rw [hp] at h
    cases h
  | ok inds =>
    rw [hp] at h
    obtain rfl := Except.ok.inj h
    obtain ⟨h1, start, last, h2⟩ := C135_peaks _ _ _ hp
    rw [List.length_map, List.length_range] at h1
    refine ⟨by rw [List.length_map, h1], fun c hc => ?_⟩
    obtain ⟨p, hq, -, -, hpk⟩ := h2 c (by simpa using hc) (by omega)
    rw [List.getElem_map, List.getElem_range] at hq
    refine ⟨_, by unfold Latency.latencyPair; rw [hq], ?_⟩
    have hlen : (td1.getD c []).length = (td1.getD 0 []).length := by
      refine hl _ ?_
      rw [List.getD_eq_getElem _ _ (by omega)]
      exact List.getElem_mem _
    rw [List.getD_eq_getElem _ _ (by rw [List.length_map]; omega), List.getElem_map, hlen]
    have := hpk.near
    rw [abs_sub_comm] at this
    convert this using 2
    push_cast
    ring

/-- The same for the channels of one signal, in the reversed order of the whole latencies. -/
theorem C135_latency_one (hilb : List K → List K) (td : List (List K)) (r : List K) (h2 : 2 ≤ td.length)
    (h : fractional1 hilb td = .ok r) (hl : ∀ s ∈ td, s.length = (td.getD 0 []).length) :
    ∃ m, Latency.latency1 td = .ok m ∧ r.length = m.length ∧ ∀ c < r.length, |r.getD c 0 - (m.getD c 0 : ℤ)| ≤ 1 := by
  unfold fractional1 at h
  cases hp : peaks hilb ((List.range (td.length - 1)).map fun c =>
      Latency.correlate (td.getD 0 []) (td.getD (td.length - 1 - c) [])) with
  | error e =>
    rw [hp] at h
    cases h
  | ok inds =>
    rw [hp] at h
    obtain rfl := Except.ok.inj h
    obtain ⟨h1, start, last, hs⟩ := C135_peaks _ _ _ hp
    rw [List.length_map, List.length_range] at h1
    have hex : ∀ c, c < td.length - 1 → ∃ p : ℕ,
        Latency.argmaxAbs (Latency.correlate (td.getD 0 []) (td.getD (td.length - 1 - c) [])) = .ok p ∧
          |inds.getD c 0 - p| ≤ 1 := by
      intro c hc
      obtain ⟨p, hq, -, -, hpk⟩ := hs c (by simpa using hc) (by omega)
      rw [List.getElem_map, List.getElem_range] at hq
      refine ⟨p, hq, ?_⟩
      rw [List.getD_eq_getElem _ _ (by omega)]
      exact hpk.near
    choose! P hP using hex
    refine ⟨(List.range (td.length - 1)).map fun c => ((td.getD 0 []).length : ℤ) - P c - 1, ?_, ?_, ?_⟩
    · unfold Latency.latency1
      rw [if_neg (by omega)]
      refine Latency.mapM_all _ _ _ fun c hc => ?_
      have hc' := List.mem_range.mp hc
      unfold Latency.latencyPair
      rw [(hP c hc').1]
      have hlen : (td.getD (td.length - 1 - c) []).length = (td.getD 0 []).length := by
        refine hl _ ?_
        rw [List.getD_eq_getElem _ _ (by omega)]
        exact List.getElem_mem _
      rw [hlen]
    · rw [List.length_map, List.length_map, List.length_range, h1]
    · intro c hc
      rw [List.length_map] at hc
      have := (hP c (by omega)).2
      have e1 : (inds.map fun v => ((td.getD 0 []).length : K) - v - 1).getD c 0 =
          ((td.getD 0 []).length : K) - inds.getD c 0 - 1 := by
        rw [List.getD_eq_getElem _ _ (by rw [List.length_map]; exact hc), List.getElem_map,
          List.getD_eq_getElem _ _ hc]
      have e2 : ((List.range (td.length - 1)).map fun c => ((td.getD 0 []).length : ℤ) - P c - 1).getD c 0 =
          ((td.getD 0 []).length : ℤ) - P c - 1 := by
        rw [List.getD_eq_getElem _ _ (by rw [List.length_map, List.length_range]; omega), List.getElem_map,
          List.getElem_range]
      rw [e1, e2]
      rw [abs_sub_comm] at this
      convert this using 2
      push_cast
      ring

omit [IsStrictOrderedRing K] in
/-- The analytic signal of one channel is computed from the samples between 200 before and 200 after the
largest one. -/
theorem C135_window (hilb : List K → List K) (x : List K) (p : ℕ) (hp : Latency.argmaxAbs x = .ok p)
    (y : List K) (hy : y.length = min x.length (p + 200) - (p - 200))
    (hyv : ∀ i < y.length, y.getD i 0 = x.getD (p - 200 + i) 0) :
    peaks hilb [x] = (refine (hilb y) (p - (p - 200))).map fun v => [v + ((p - 200 : ℕ) : K)] := by
  have hc : crop (p - 200) p x = y := by
    refine LFilter.ext_getD _ _ (by simp [crop, hy, min_comm]) fun i hi => ?_
    have hi' : i < y.length := by simpa [crop, hy, min_comm] using hi
    rw [hyv i hi']
    unfold crop
    rw [List.getD_eq_getElem?_getD, List.getD_eq_getElem?_getD, List.getElem?_drop, List.getElem?_take_of_lt]
    omega
  unfold peaks
  have e1 : [x].mapM Latency.argmaxAbs = .ok [p] := by
    rw [List.mapM_cons, hp]
    rfl
  rw [e1]
  simp only [bind, Except.bind, List.cons_ne_nil, if_false, pure, Except.pure, List.foldr_cons,
    List.foldr_nil, List.headD_cons, min_self, max_eq_left (Nat.zero_le p)]
  simp only [List.length_singleton, List.range_one, List.mapM_cons, List.mapM_nil, bind, Except.bind, pure,
    Except.pure, List.getD_cons_zero, hc]
  cases refine (hilb y) (p - (p - 200)) <;> rfl

omit [IsStrictOrderedRing K] in
/-- Not so: integer latencies are returned where no root is found.  A response whose largest sample is
the last one raises IndexError, whatever the analytic part. -/
theorem C135_last_sample_wrong (hilb : List K → List K) (hh : ∀ x, (hilb x).length = x.length) (x : List K)
    (p : ℕ) (hp : Latency.argmaxAbs x = .ok p) (hlast : p + 1 = x.length) :
    peaks hilb [x] = .error .indexError := by
  unfold peaks
  have e1 : [x].mapM Latency.argmaxAbs = .ok [p] := by
    rw [List.mapM_cons, hp]
    rfl
  rw [e1]
  have e2 : refine (hilb (crop (p - 200) p x)) (p - (p - 200)) = .error .indexError := by
    unfold refine
    rw [if_pos]
    rw [hh]
    unfold crop
    rw [List.length_drop, List.length_take]
    omega
  have e3 : [p].foldr min ([p].headD 0) = p := by simp
  have e4 : [p].foldr max 0 = p := by simp
  simp only [bind, Except.bind, if_neg (List.cons_ne_nil p []), pure, Except.pure, e3, e4]
  show ([0].mapM _ : Except Err (List K)) = _
  rw [List.mapM_cons]
  have e5 : [x].getD 0 [] = x := rfl
  have e6 : [p].getD 0 0 = p := rfl
  rw [e5, e6, e2]
  rfl

/-- The Hilbert transform of four samples. -/
def hilbert4 (x : List ℚ) : List ℚ :=
  (List.range x.length).map fun n => (x.getD ((n + 3) % 4) 0 - x.getD ((n + 1) % 4) 0) / 2

/-- Not so either for a peak at the first sample: the zero is searched before the start, where there
are no samples, and TypeError is raised. -/
theorem C135_first_sample_wrong : peaks hilbert4 [[4, 1, 2, 3]] = .error .typeError := by
  decide +kernel

/-- Concrete case: a symmetric peak between the samples 1 and 2. -/
example : peaks hilbert4 [[0, 3, 3, 0]] = .ok [3 / 2] ∧ peaks hilbert4 [[0, 3, 1, 0]] = .ok [5 / 4] := by
  decide +kernel

/-- Concrete case: two channels. -/
example : fractional2 (fun x => x.map fun _ => (0 : ℚ)) [[0, 1]] [[1, 0]] = .ok [1] := by
  decide +kernel

end Verif.FractionalPeak
