import Verif.Model.PeakPoints
import Verif.Props.C135
import Mathlib.Topology.Algebra.Polynomial
import Mathlib.Topology.Order.IntermediateValue
import Mathlib.Topology.Instances.Real.Lemmas
import Mathlib.Topology.Order.Real

/-!
# C135: positions of peaks between samples, with any number of points
-/

namespace Verif.FractionalPeak

open Polynomial

/-- `roots` finds the real roots of every polynomial but zero, in any order, and none for zero. -/
def FindsRoots (roots : ℝ[X] → List ℝ) : Prop :=
  roots 0 = [] ∧ ∀ P : ℝ[X], P ≠ 0 → ∀ r, r ∈ roots P ↔ P.eval r = 0

/-- The roots of Mathlib do. -/
example : FindsRoots fun P => P.roots.toList := by
  refine ⟨by simp, fun P hP r => ?_⟩
  rw [Multiset.mem_toList, mem_roots hP, IsRoot.def]

/-- The values change their sign between the samples `a` and `a + 1`, which are the largest sample `d` and the next one, or,
without a change there, the sample before and the largest one. -/
def Crossing (h : List ℝ) (d a : ℕ) : Prop :=
  (a = d ∧ h.getD d 0 * h.getD (d + 1) 0 ≤ 0) ∨
    (a + 1 = d ∧ 0 < h.getD d 0 * h.getD (d + 1) 0 ∧ h.getD a 0 * h.getD d 0 ≤ 0)

/-- `P` is the polynomial through the values of the samples `a - points + 1, ..., a + points`; sample `a` is at 0. -/
def Fits (h : List ℝ) (points a : ℕ) (P : ℝ[X]) : Prop :=
  P.degree < (2 * points : ℕ) ∧ ∀ k : ℕ, a < k + points → k ≤ a + points → P.eval ((k : ℝ) - a) = h.getD k 0

theorem entry_nat (h : List ℝ) (n : ℕ) : entry h (n : ℤ) = h.getD n 0 := by
  unfold entry
  rw [if_neg (by omega)]
  congr 1

theorem fitted_fits (h : List ℝ) (points a : ℕ) (ha : points ≤ a + 1) : Fits h points a (fitted h points a) := by
  have hinj : Set.InjOn (fun i : ℕ => (i : ℝ) + (1 - points)) (Finset.range (2 * points)) := by
    intro i _ j _ hij
    have : (i : ℝ) = j := by
      dsimp only at hij
      linarith
    exact_mod_cast this
  refine ⟨?_, fun k h1 h2 => ?_⟩
  · have := Lagrange.degree_interpolate_lt (fun i : ℕ => h.getD (a + 1 - points + i) 0) hinj
    rw [Finset.card_range] at this
    exact this
  · have := Lagrange.eval_interpolate_at_node (fun i : ℕ => h.getD (a + 1 - points + i) 0) hinj
      (i := k + points - (a + 1)) (Finset.mem_range.2 (by omega))
    have e1 : (((k + points - (a + 1) : ℕ) : ℝ)) + (1 - points) = (k : ℝ) - a := by
      rw [Nat.cast_sub (by omega)]
      push_cast
      ring
    have e2 : a + 1 - points + (k + points - (a + 1)) = k := by omega
    rw [e2] at this
    rw [e1] at this
    exact this

/-- What is left of the loop after a change of sign. -/
theorem refinePoints_crossing (roots : ℝ[X] → List ℝ) (points : ℕ) (h : List ℝ) (d a : ℕ) (hd : d + 1 < h.length)
    (hp : 1 ≤ points) (hc : Crossing h d a) :
    refinePoints roots points h d =
      if a + 1 < points ∨ h.length ≤ a + points then .error .typeError
      else match (roots (fitted h points a)).filter fun r => decide (r ≤ 1 ∧ 0 ≤ r) with
        | [] => .ok (d : ℝ)
        | r :: _ => .ok ((a : ℝ) + r) := by
  unfold refinePoints
  rw [if_neg (by omega)]
  dsimp only
  rcases hc with ⟨rfl, hc⟩ | ⟨hda, hb, hc⟩
  · simp only [not_lt.mpr hc, decide_false, Bool.false_eq_true, if_false, sub_zero, add_zero]
    have e1 : entry h ((a : ℤ) + 1) = h.getD (a + 1) 0 := by exact_mod_cast entry_nat h (a + 1)
    rw [entry_nat, e1, if_neg (not_lt.mpr hc), if_neg (by omega)]
    have : ((a : ℤ) - points + 1 < 0 ∨ (h.length : ℤ) < a + points + 1) ↔ (a + 1 < points ∨ h.length ≤ a + points) := by
      omega
    simp only [this, Int.toNat_natCast, Int.cast_natCast]
    by_cases hq : a + 1 < points ∨ h.length ≤ a + points
    · rw [if_pos hq, if_pos hq]
    · rw [if_neg hq, if_neg hq]
      cases (roots (fitted h points a)).filter fun r => decide (r ≤ 1 ∧ 0 ≤ r) <;> rfl
  · subst hda
    simp only [hb, decide_true, if_true]
    have e0 : (((a + 1 : ℕ) : ℤ) - 1) = (a : ℤ) := by push_cast; ring
    have e1 : entry h ((a : ℤ) + 1) = h.getD (a + 1) 0 := by exact_mod_cast entry_nat h (a + 1)
    rw [e0, entry_nat, e1, if_neg (not_lt.mpr hc), if_neg (by omega)]
    have : ((a : ℤ) - points + 1 < 0 ∨ (h.length : ℤ) < a + points + 1) ↔ (a + 1 < points ∨ h.length ≤ a + points) := by
      omega
    simp only [this, Int.toNat_natCast, Int.cast_natCast, Nat.cast_add, Nat.cast_one]
    by_cases hq : a + 1 < points ∨ h.length ≤ a + points
    · rw [if_pos hq, if_pos hq]
    · rw [if_neg hq, if_neg hq]
      cases (roots (fitted h points a)).filter fun r => decide (r ≤ 1 ∧ 0 ≤ r) <;> rfl

/-- **C135.**  With any number of points: where the analytic part changes its sign next to the largest sample and the points
around are inside the array and not all zero, the position is a zero, between the two samples of the change, of the polynomial
through the points. -/
theorem C135_points (roots : ℝ[X] → List ℝ) (hr : FindsRoots roots) (points : ℕ) (hp : 1 ≤ points) (h : List ℝ) (d a : ℕ)
    (hd : d + 1 < h.length) (hc : Crossing h d a) (hlo : points ≤ a + 1) (hhi : a + points < h.length)
    (hne : ∃ k, a < k + points ∧ k ≤ a + points ∧ h.getD k 0 ≠ 0) :
    ∃ (r : ℝ) (P : ℝ[X]), refinePoints roots points h d = .ok (a + r) ∧ 0 ≤ r ∧ r ≤ 1 ∧ Fits h points a P ∧
      P.eval r = 0 := by
  have hf := fitted_fits h points a hlo
  set P := fitted h points a with hP
  have hP0 : P ≠ 0 := by
    obtain ⟨k, h1, h2, h3⟩ := hne
    intro h0
    apply h3
    rw [← hf.2 k h1 h2, h0, eval_zero]
  have v0 : P.eval 0 = h.getD a 0 := by
    have := hf.2 a (by omega) (by omega)
    rwa [sub_self] at this
  have v1 : P.eval 1 = h.getD (a + 1) 0 := by
    have := hf.2 (a + 1) (by omega) (by omega)
    rwa [Nat.cast_add, Nat.cast_one, add_sub_cancel_left] at this
  have hs : P.eval 0 * P.eval 1 ≤ 0 := by
    rw [v0, v1]
    rcases hc with ⟨rfl, hc⟩ | ⟨rfl, -, hc⟩ <;> exact hc
  obtain ⟨r, hr1, hr0⟩ : (0 : ℝ) ∈ (fun t => P.eval t) '' Set.uIcc 0 1 := by
    refine intermediate_value_uIcc P.continuous.continuousOn ?_
    rw [Set.mem_uIcc]
    rcases le_total (P.eval 0) 0 with h0 | h0 <;> rcases le_total (P.eval 1) 0 with h1 | h1
    · have : P.eval 0 = 0 ∨ P.eval 1 = 0 := by
        by_contra hn
        push Not at hn
        have := mul_pos_of_neg_of_neg (lt_of_le_of_ne h0 hn.1) (lt_of_le_of_ne h1 hn.2)
        linarith
      rcases this with h' | h'
      · exact Or.inr ⟨h1, h'.ge⟩
      · exact Or.inl ⟨h0, h'.ge⟩
    · exact Or.inl ⟨h0, h1⟩
    · exact Or.inr ⟨h1, h0⟩
    · have : P.eval 0 = 0 ∨ P.eval 1 = 0 := by
        by_contra hn
        push Not at hn
        have := mul_pos (lt_of_le_of_ne h0 hn.1.symm) (lt_of_le_of_ne h1 hn.2.symm)
        linarith
      rcases this with h' | h'
      · exact Or.inl ⟨h'.le, h1⟩
      · exact Or.inr ⟨h'.le, h0⟩
  rw [Set.uIcc_of_le zero_le_one] at hr1
  have hmem : r ∈ (roots P).filter fun r => decide (r ≤ 1 ∧ 0 ≤ r) := by
    rw [List.mem_filter, decide_eq_true_eq]
    exact ⟨(hr.2 P hP0 r).2 hr0, hr1.2, hr1.1⟩
  rw [refinePoints_crossing roots points h d a hd hp hc, if_neg (by omega), ← hP]
  cases hl : (roots P).filter fun r => decide (r ≤ 1 ∧ 0 ≤ r) with
  | nil =>
    rw [hl] at hmem
    simp at hmem
  | cons s l =>
    have hs : s ∈ (roots P).filter fun r => decide (r ≤ 1 ∧ 0 ≤ r) := by
      rw [hl]
      simp
    rw [List.mem_filter, decide_eq_true_eq] at hs
    exact ⟨s, P, rfl, hs.2.2, hs.2.1, hf, (hr.2 P hP0 s).1 hs.1⟩

/-- **C135.**  Without a change of sign on both sides of the largest sample, its position is returned, for any number of
points. -/
theorem C135_points_none (roots : ℝ[X] → List ℝ) (points : ℕ) (h : List ℝ) (d : ℕ) (hd : d + 2 < h.length)
    (h1 : 0 < h.getD d 0 * h.getD (d + 1) 0) (h2 : 0 < h.getD (d + 1) 0 * h.getD (d + 2) 0) :
    refinePoints roots points h (d + 1) = .ok ((d + 1 : ℕ) : ℝ) := by
  unfold refinePoints
  rw [if_neg (by omega)]
  dsimp only
  simp only [h2, decide_true, if_true]
  have e0 : (((d + 1 : ℕ) : ℤ) - 1) = (d : ℤ) := by push_cast; ring
  have e1 : entry h ((d : ℤ) + 1) = h.getD (d + 1) 0 := by exact_mod_cast entry_nat h (d + 1)
  rw [e0, entry_nat, e1, if_pos h1]
  push_cast
  rfl

/-- **C135** (disagreement).  The integer position is promised wherever no root is found; but where the points reach over an end
of the array, the call raises TypeError. -/
theorem C135_points_edge_wrong (roots : ℝ[X] → List ℝ) (points : ℕ) (hp : 1 ≤ points) (h : List ℝ) (d a : ℕ)
    (hd : d + 1 < h.length) (hc : Crossing h d a) (he : a + 1 < points ∨ h.length ≤ a + points) :
    refinePoints roots points h d = .error .typeError := by
  rw [refinePoints_crossing roots points h d a hd hp hc, if_pos he]

/-- With one point this is the straight line of `refine`. -/
theorem C135_points_one (roots : ℝ[X] → List ℝ) (hr : FindsRoots roots) (h : List ℝ) (d a : ℕ) (hd : d + 1 < h.length)
    (hc : Crossing h d a) (hne : h.getD a 0 ≠ h.getD (a + 1) 0) :
    refinePoints roots 1 h d = .ok (a + h.getD a 0 / (h.getD a 0 - h.getD (a + 1) 0)) := by
  have hla : a + 1 < h.length := by
    rcases hc with ⟨rfl, -⟩ | ⟨rfl, -⟩ <;> omega
  obtain ⟨r, P, h1, -, -, hf, h2⟩ := C135_points roots hr 1 le_rfl h d a hd hc (by omega) hla (by
    by_cases h0 : h.getD a 0 = 0
    · exact ⟨a + 1, by omega, by omega, fun h1 => hne (h0.trans h1.symm)⟩
    · exact ⟨a, by omega, by omega, h0⟩)
  rw [h1]
  have v0 : P.eval 0 = h.getD a 0 := by
    have := hf.2 a (by omega) (by omega)
    rwa [sub_self] at this
  have v1 : P.eval 1 = h.getD (a + 1) 0 := by
    have := hf.2 (a + 1) (by omega) (by omega)
    rwa [Nat.cast_add, Nat.cast_one, add_sub_cancel_left] at this
  have hdeg : P.degree ≤ 1 := by
    have := (degree_lt_iff_coeff_zero P _).1 hf.1
    rw [← Nat.cast_one, degree_le_iff_coeff_zero]
    intro m hm
    exact this m (by
      have : 1 < m := by exact_mod_cast hm
      omega)
  obtain ⟨b, c, hbc⟩ : ∃ b c : ℝ, P = C b * X + C c := ⟨_, _, eq_X_add_C_of_degree_le_one hdeg⟩
  rw [hbc] at v0 v1 h2
  simp only [eval_add, eval_mul, eval_C, eval_X, mul_zero, zero_add, mul_one] at v0 v1 h2
  have hs : h.getD a 0 - h.getD (a + 1) 0 ≠ 0 := sub_ne_zero.2 hne
  congr 2
  rw [eq_div_iff hs, ← v0, ← v1]
  linear_combination -h2

/-- One channel: at most one sample away from the largest one. -/
theorem refinePoints_near (roots : ℝ[X] → List ℝ) (points : ℕ) (h : List ℝ) (d : ℕ) (v : ℝ)
    (hv : refinePoints roots points h d = .ok v) : |v - d| ≤ 1 := by
  unfold refinePoints at hv
  by_cases hl : h.length ≤ d + 1
  · rw [if_pos hl] at hv
    cases hv
  rw [if_neg hl] at hv
  dsimp only at hv
  generalize decide (0 < h.getD d 0 * h.getD (d + 1) 0) = back at hv
  have hint : ((((d : ℤ) - (if back then 1 else 0) : ℤ) : ℝ)) + (if back then 1 else 0) = d := by
    cases back <;> simp
  rw [hint] at hv
  split_ifs at hv
  all_goals first
    | (rw [← Except.ok.inj hv]; simp)
    | (revert hv
       split
       · intro hv
         rw [← Except.ok.inj hv]
         simp
       · rename_i r l hrl
         intro hv
         have hr : r ∈ (r :: l) := by simp
         rw [← hrl, List.mem_filter, decide_eq_true_eq] at hr
         rw [← Except.ok.inj hv, abs_le]
         push_cast
         constructor
         · linarith [hr.2.1, hr.2.2]
         · linarith [hr.2.1, hr.2.2])

/-- **C135.**  All channels, any number of points: every position is that of the loop for the channel itself, counted from the
beginning of the array, and at most one sample away from the first largest sample of the channel. -/
theorem C135_points_peaks (roots : ℝ[X] → List ℝ) (points : ℕ) (hilb : List ℝ → List ℝ) (x : List (List ℝ)) (r : List ℝ)
    (h : peaksPoints roots points hilb x = .ok r) :
    r.length = x.length ∧ ∃ start last : ℕ, ∀ c (hc : c < x.length) (hr : c < r.length),
      ∃ p, Latency.argmaxAbs x[c] = .ok p ∧ start ≤ p ∧ p ≤ last ∧ |r[c] - p| ≤ 1 ∧
        refinePoints roots points (hilb (crop start last x[c])) (p - start) = .ok (r[c] - start) := by
  unfold peaksPoints at h
  cases hds : x.mapM Latency.argmaxAbs with
  | error e =>
    rw [hds] at h
    cases h
  | ok ds =>
    rw [hds] at h
    obtain ⟨l1, s1⟩ := Room.mapM_spec _ _ _ hds
    simp only [bind, Except.bind] at h
    by_cases h0 : ds = []
    · rw [if_pos h0] at h
      cases h
    · rw [if_neg h0] at h
      simp only [pure, Except.pure] at h
      obtain ⟨l2, s2⟩ := Room.mapM_spec _ _ _ h
      rw [List.length_range] at l2
      refine ⟨l2, ds.foldr min (ds.headD 0) - 200, ds.foldr max 0, fun c hc hr => ?_⟩
      have hcd : c < ds.length := by omega
      have hs := s2 c (by rw [List.length_range]; exact hc) hr
      have e5 : x.getD c [] = x[c] := List.getD_eq_getElem _ _ hc
      have e6 : ds.getD c 0 = ds[c] := List.getD_eq_getElem _ _ hcd
      simp only [List.getElem_range, e5, e6] at hs
      set start := ds.foldr min (ds.headD 0) - 200 with hst
      have hle : start ≤ ds[c] := by
        have := foldr_min_le ds (ds.headD 0) ds[c] (List.getElem_mem hcd)
        omega
      clear_value start
      have hmax : ∀ (l : List ℕ) (a : ℕ), a ∈ l → a ≤ l.foldr max 0 := by
        intro l
        induction l with
        | nil => intro a ha; simp at ha
        | cons b l ih =>
          intro a ha
          rw [List.foldr_cons]
          rcases List.mem_cons.mp ha with rfl | ha
          · exact le_max_left _ _
          · exact (ih a ha).trans (le_max_right _ _)
      cases hrf : refinePoints roots points (hilb (crop start (ds.foldr max 0) (x[c]'hc))) ((ds[c]'hcd) - start) with
      | error e =>
        rw [hrf] at hs
        cases hs
      | ok v =>
        rw [hrf] at hs
        have hv : r[c] = v + start := (Except.ok.inj hs).symm
        refine ⟨ds[c], s1 c hc hcd, hle, hmax ds _ (List.getElem_mem hcd), ?_, ?_⟩
        · have := refinePoints_near _ _ _ _ _ hrf
          rw [Nat.cast_sub hle] at this
          rw [hv]
          convert this using 2
          ring
        · rw [hrf, hv, add_sub_cancel_right]

/-- **C135.**  For any number of points, the fractional latency of every channel is at most one sample away from the whole
latency. -/
theorem C135_points_latency (roots : ℝ[X] → List ℝ) (points : ℕ) (hilb : List ℝ → List ℝ) (td1 td2 : List (List ℝ))
    (r : List ℝ) (h : fractionalPoints roots points hilb td1 td2 = .ok r)
    (hl : ∀ s ∈ td1, s.length = (td1.getD 0 []).length) (hn : td1.length = td2.length) :
    r.length = td2.length ∧ ∀ c < td2.length, ∃ m : ℤ,
      Latency.latencyPair (td1.getD c []) (td2.getD c []) = .ok m ∧ |r.getD c 0 - m| ≤ 1 := by
  unfold fractionalPoints at h
  cases hp : peaksPoints roots points hilb ((List.range td2.length).map fun c =>
      Latency.correlate (td2.getD c []) (td1.getD c [])) with
  | error e =>
    rw [hp] at h
    cases h
  | ok inds =>
    rw [hp] at h
    obtain rfl := Except.ok.inj h
    obtain ⟨h1, start, last, h2⟩ := C135_points_peaks _ _ _ _ _ hp
    rw [List.length_map, List.length_range] at h1
    refine ⟨by rw [List.length_map, h1], fun c hc => ?_⟩
    obtain ⟨p, hq, -, -, hpk, -⟩ := h2 c (by simpa using hc) (by omega)
    rw [List.getElem_map, List.getElem_range] at hq
    refine ⟨_, by unfold Latency.latencyPair; rw [hq], ?_⟩
    have hlen : (td1.getD c []).length = (td1.getD 0 []).length := by
      refine hl _ ?_
      rw [List.getD_eq_getElem _ _ (by omega)]
      exact List.getElem_mem _
    rw [List.getD_eq_getElem _ _ (by rw [List.length_map]; omega), List.getElem_map, hlen]
    have := hpk
    rw [abs_sub_comm] at this
    convert this using 2
    push_cast
    ring

/-- **C135.**  The same for the channels of one signal, in the reversed order of the whole latencies. -/
theorem C135_points_latency_one (roots : ℝ[X] → List ℝ) (points : ℕ) (hilb : List ℝ → List ℝ) (td : List (List ℝ)) (r : List ℝ)
    (h2 : 2 ≤ td.length) (h : fractionalPoints1 roots points hilb td = .ok r) (hl : ∀ s ∈ td, s.length = (td.getD 0 []).length) :
    ∃ m, Latency.latency1 td = .ok m ∧ r.length = m.length ∧ ∀ c < r.length, |r.getD c 0 - (m.getD c 0 : ℤ)| ≤ 1 := by
  unfold fractionalPoints1 at h
  cases hp : peaksPoints roots points hilb ((List.range (td.length - 1)).map fun c =>
      Latency.correlate (td.getD 0 []) (td.getD (td.length - 1 - c) [])) with
  | error e =>
    rw [hp] at h
    cases h
  | ok inds =>
    rw [hp] at h
    obtain rfl := Except.ok.inj h
    obtain ⟨h1, start, last, hs⟩ := C135_points_peaks _ _ _ _ _ hp
    rw [List.length_map, List.length_range] at h1
    have hex : ∀ c, c < td.length - 1 → ∃ p : ℕ,
        Latency.argmaxAbs (Latency.correlate (td.getD 0 []) (td.getD (td.length - 1 - c) [])) = .ok p ∧
          |inds.getD c 0 - p| ≤ 1 := by
      intro c hc
      obtain ⟨p, hq, -, -, hpk, -⟩ := hs c (by simpa using hc) (by omega)
      rw [List.getElem_map, List.getElem_range] at hq
      refine ⟨p, hq, ?_⟩
      rw [List.getD_eq_getElem _ _ (by omega)]
      exact hpk
    choose! P hP using hex
    refine ⟨(List.range (td.length - 1)).map fun c => ((td.getD 0 []).length : ℤ) - P c - 1, ?_, ?_, ?_⟩
    · unfold Latency.latency1
      rw [if_neg (by omega)]
      refine Latency.mapM_all _ _ _ fun c hc => ?_
      have hc' := List.mem_range.mp hc
      unfold Latency.latencyPair
      rw [(hP c hc').1]
      have hlen : (td.getD (td.length - 1 - c) []).length = (td.getD 0 []).length := by
        refine hl _ ?_
        rw [List.getD_eq_getElem _ _ (by omega)]
        exact List.getElem_mem _
      rw [hlen]
    · rw [List.length_map, List.length_map, List.length_range, h1]
    · intro c hc
      rw [List.length_map] at hc
      have := (hP c (by omega)).2
      have e1 : (inds.map fun v => ((td.getD 0 []).length : ℝ) - v - 1).getD c 0 =
          ((td.getD 0 []).length : ℝ) - inds.getD c 0 - 1 := by
        rw [List.getD_eq_getElem _ _ (by rw [List.length_map]; exact hc), List.getElem_map,
          List.getD_eq_getElem _ _ hc]
      have e2 : ((List.range (td.length - 1)).map fun c => ((td.getD 0 []).length : ℤ) - P c - 1).getD c 0 =
          ((td.getD 0 []).length : ℤ) - P c - 1 := by
        rw [List.getD_eq_getElem _ _ (by rw [List.length_map, List.length_range]; omega), List.getElem_map,
          List.getElem_range]
      rw [e1, e2]
      rw [abs_sub_comm] at this
      convert this using 2
      push_cast
      ring

/-- A channel for which the positions are found: the largest sample in the middle, without a change of sign around it. -/
example : peaksPoints (fun _ => []) 3 (fun _ => [1, 1, 1]) [[0, 1, 0]] = .ok [1] := by
  have h : Latency.argmaxAbs ([0, 1, 0] : List ℝ) = .ok 1 := by
    norm_num [Latency.argmaxAbs, Helpers.argmin, Helpers.argminFrom]
  simp [peaksPoints, List.mapM_cons, h, refinePoints, entry, bind, Except.bind, pure, Except.pure]

/-- A change of sign in the middle of four values, for two points. -/
example : Crossing [1, 2, -1, -3] 1 1 ∧ 2 ≤ 1 + 1 ∧ 1 + 2 < ([1, 2, -1, -3] : List ℝ).length ∧
    ∃ k, 1 < k + 2 ∧ k ≤ 1 + 2 ∧ ([1, 2, -1, -3] : List ℝ).getD k 0 ≠ 0 :=
  ⟨Or.inl ⟨rfl, by norm_num⟩, by norm_num, by norm_num, 0, by norm_num, by norm_num, by norm_num⟩

/-- A change of sign at the beginning, which two points exceed. -/
example : Crossing [1, -1, -3] 0 0 ∧ 0 + 1 < 2 := ⟨Or.inl ⟨rfl, by norm_num⟩, by norm_num⟩

end Verif.FractionalPeak
