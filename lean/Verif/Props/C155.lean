import Verif.Model.FilterGroupDelay
import Verif.Props.C89
import Mathlib.Analysis.Complex.Polynomial.Basic
import Mathlib.Algebra.Polynomial.Splits

/-!
# C155: the group delay of a filter object

"`Filter.get_group_delay` returns, for every filter and all frequencies, the negative derivative of the phase of
the filter at these frequencies, in seconds or in samples; for a filter given by sections this is the sum of the
group delays of the sections.  Symmetric and antisymmetric FIR filters delay all frequencies by half of their
order, and a stable all-pass delays every frequency."

Facts about the code: the leading zeros of the numerators of the sections are lost in the conversion of the
coefficients, so that a filter of sections that begin with a delay has a group delay that is too small by exactly
these samples; where the response of a filter is zero the group delay is 0, also for symmetric filters.
-/

namespace Verif.GroupDelay

open Complex Finset Filter
open scoped Topology

/-! ### Lemmas -/

theorem polyval_reverse (c : List ℝ) (z : ℂ) :
    polyval c.reverse z = ∑ n ∈ range c.length, (c.getD n 0 : ℂ) * z ^ n := by
  induction c with
  | nil => simp [polyval]
  | cons x c ih =>
    rw [List.reverse_cons, polyval_snoc, ih, List.length_cons, sum_range_succ', sum_mul]
    simp only [List.getD_cons_succ, List.getD_cons_zero, pow_zero, mul_one]
    congr 1
    exact sum_congr rfl fun n _ => by ring

theorem polyval_reverse_resp (c : List ℝ) (w : ℝ) : polyval c.reverse (exp (-(I * w))) = resp c w := by
  rw [polyval_reverse]
  unfold resp
  refine sum_congr rfl fun n _ => ?_
  rw [← Complex.exp_nat_mul]
  congr 2
  ring

/-- The value of scipy is the value of the toolbox (C89), in samples. -/
theorem scipyDelay_eq (b a : List ℝ) (w : ℝ) : scipyDelay b a w = delayAt b a 1 w := by
  unfold scipyDelay delayAt
  dsimp only
  rw [polyval_reverse_resp, polyval_reverse_resp]
  set c := convolve b a.reverse
  have h1 := polyval_resp c w
  have h2 := polyval_resp (c.zipIdx.map fun p => p.1 * (p.2 : ℝ)) w
  rw [List.length_map, List.length_zipIdx] at h2
  set z := exp (I * w)
  have hz : z ≠ 0 := Complex.exp_ne_zero _
  have hzp := pow_ne_zero c.length hz
  rw [Nat.cast_one, div_one]
  by_cases h0 : resp c w = 0
  · rw [if_pos h0, if_pos]
    rw [h0, mul_zero] at h1
    exact (mul_eq_zero.1 h1).resolve_right hz
  · rw [if_neg h0, if_neg]
    · rw [← mul_div_mul_right (polyval _ z) _ hz, h1, h2, mul_div_mul_left _ _ hzp]
    · intro h
      rw [h, zero_mul] at h1
      exact (mul_ne_zero hzp h0) h1.symm

theorem resp_cons (x : ℝ) (l : List ℝ) (w : ℝ) : resp (x :: l) w = x + exp (-(I * w)) * resp l w := by
  unfold resp
  rw [List.length_cons, sum_range_succ', mul_sum, add_comm]
  congr 1
  · simp
  · refine sum_congr rfl fun n _ => ?_
    rw [List.getD_cons_succ, show exp (-(I * w * ((n + 1 : ℕ) : ℂ))) = exp (-(I * w)) * exp (-(I * w * n)) by
      rw [← Complex.exp_add]; congr 1; push_cast; ring]
    ring

/-- Number of zeros at the beginning. -/
noncomputable def lead (l : List ℝ) : ℕ :=
  open Classical in (l.takeWhile (· = 0)).length

open Classical in
theorem head_dropWhile (l : List ℝ) (h : ∃ x ∈ l, x ≠ 0) : (l.dropWhile (· = 0)).getD 0 0 ≠ 0 := by
  induction l with
  | nil => obtain ⟨x, hx, -⟩ := h; cases hx
  | cons x l ih =>
    obtain ⟨y, hy, h0⟩ := h
    by_cases hx : x = 0
    · rw [List.dropWhile_cons, if_pos (by simpa using hx)]
      rcases List.mem_cons.1 hy with rfl | hy
      · exact absurd hx h0
      · exact ih ⟨y, hy, h0⟩
    · rw [List.dropWhile_cons, if_neg (by simpa using hx)]
      simpa using hx

theorem resp_trimFront (l : List ℝ) (h : ∃ x ∈ l, x ≠ 0) (w : ℝ) :
    resp l w = exp (-(I * w * lead l)) * resp (trimFront l) w := by
  classical
  have key : ∀ l : List ℝ, resp l w = exp (-(I * w * lead l)) * resp (l.dropWhile (· = 0)) w := by
    intro l
    induction l with
    | nil => simp [resp]
    | cons x l ih =>
      by_cases hx : x = 0
      · have hl : lead (x :: l) = lead l + 1 := by
          unfold lead; rw [List.takeWhile_cons, if_pos (by simpa using hx)]; simp
        rw [resp_cons, hl, List.dropWhile_cons, if_pos (by simpa using hx), ih, hx,
          show exp (-(I * w * ((lead l + 1 : ℕ) : ℂ))) = exp (-(I * w)) * exp (-(I * w * lead l)) by
            rw [← Complex.exp_add]; congr 1; push_cast; ring]
        push_cast
        ring
      · have hl : lead (x :: l) = 0 := by
          unfold lead; rw [List.takeWhile_cons, if_neg (by simpa using hx)]; rfl
        rw [hl, List.dropWhile_cons, if_neg (by simpa using hx)]
        simp
  have hne : l.dropWhile (· = 0) ≠ [] := by
    intro he
    have := head_dropWhile l h
    simp only [he] at this
    exact this rfl
  rw [key l]
  unfold trimFront
  rw [if_neg]
  convert hne

theorem lead_zero (l : List ℝ) (h : l.getD 0 0 ≠ 0) : lead l = 0 := by
  classical
  cases l with
  | nil => rfl
  | cons x l =>
    unfold lead
    rw [List.takeWhile_cons, if_neg (by simpa using h)]; rfl

theorem head_convolve (x y : List ℝ) (hx : x.getD 0 0 ≠ 0) (hy : y.getD 0 0 ≠ 0) :
    (convolve x y).getD 0 0 ≠ 0 := by
  have h1 : 0 < x.length := by
    rcases x with _ | ⟨x, l⟩
    · simp at hx
    · simp
  have h2 : 0 < y.length := by
    rcases y with _ | ⟨y, l⟩
    · simp at hy
    · simp
  unfold convolve
  rw [LFilter.getD_map_range, if_pos (by omega)]
  simpa using ⟨hx, hy⟩

theorem head_trimFront (l : List ℝ) (h : ∃ x ∈ l, x ≠ 0) : (trimFront l).getD 0 0 ≠ 0 := by
  classical
  have hk := head_dropWhile l h
  unfold trimFront
  rw [if_neg]
  · convert hk
  · intro he
    apply hk
    have : l.dropWhile (· = 0) = [] := by convert he
    rw [this]; rfl

theorem exists_ne_of_head (l : List ℝ) (h : l.getD 0 0 ≠ 0) : ∃ x ∈ l, x ≠ 0 := by
  cases l with
  | nil => simp at h
  | cons x l => exact ⟨x, by simp, by simpa using h⟩

theorem exists_ne_of_resp (l : List ℝ) (w : ℝ) (h : resp l w ≠ 0) : ∃ x ∈ l, x ≠ 0 := by
  by_contra hc
  push Not at hc
  apply h
  unfold resp
  refine sum_eq_zero fun n hn => ?_
  have hn := mem_range.1 hn
  rw [List.getD_eq_getElem _ _ hn, hc _ (List.getElem_mem hn)]
  simp

/-- The conversion of sections: the leading zeros are lost. -/
theorem resp_sos2tf (ss : List (List ℝ)) (hb : ∀ r ∈ ss, ∃ x ∈ r.take 3, x ≠ 0)
    (ha : ∀ r ∈ ss, (r.drop 3).getD 0 0 ≠ 0) (w : ℝ) :
    exp (-(I * w * ((ss.map fun r => lead (r.take 3)).sum : ℕ))) * resp (sos2tf ss).1 w =
      (ss.map fun r => resp (r.take 3) w).prod ∧
    resp (sos2tf ss).2 w = (ss.map fun r => resp (r.drop 3) w).prod ∧
    (sos2tf ss).1.getD 0 0 ≠ 0 ∧ (sos2tf ss).2.getD 0 0 ≠ 0 := by
  induction ss using List.reverseRecOn with
  | nil => simp [sos2tf, resp]
  | append_singleton ss r ih =>
    obtain ⟨h1, h2, h3, h4⟩ := ih (fun q hq => hb q (by simp [hq])) (fun q hq => ha q (by simp [hq]))
    have hbr := hb r (by simp)
    have har := ha r (by simp)
    have hs : sos2tf (ss ++ [r]) = (polymul (sos2tf ss).1 (r.take 3), polymul (sos2tf ss).2 (r.drop 3)) := by
      unfold sos2tf
      rw [List.foldl_append]
      rfl
    have e3 := exists_ne_of_head _ h3
    have e4 := exists_ne_of_head _ h4
    have ear := exists_ne_of_head _ har
    have t1 := resp_trimFront _ e3 w
    have t2 := resp_trimFront _ e4 w
    have t3 := resp_trimFront _ hbr w
    have t4 := resp_trimFront _ ear w
    rw [lead_zero _ h3] at t1
    rw [lead_zero _ h4] at t2
    rw [lead_zero _ har] at t4
    simp only [Nat.cast_zero, mul_zero, neg_zero, Complex.exp_zero, one_mul] at t1 t2 t4
    rw [hs]
    refine ⟨?_, ?_, head_convolve _ _ (head_trimFront _ e3) (head_trimFront _ hbr),
      head_convolve _ _ (head_trimFront _ e4) (head_trimFront _ ear)⟩
    · simp only [polymul, resp_convolve, List.map_append, List.map_cons, List.map_nil, List.sum_append,
        List.sum_singleton, List.prod_append, List.prod_singleton]
      rw [← h1, ← t1, t3, exp_add_index]
      ring
    · simp only [polymul, resp_convolve, List.map_append, List.map_cons, List.map_nil, List.prod_append,
        List.prod_singleton]
      rw [← h2, ← t2, ← t4]

/-- A factor that is a delay. -/
theorem groupDelay_shift (H G : ℝ → ℂ) (w tau : ℝ) (K : ℕ) (hG : ∀ v : ℝ, exp (-(I * v * K)) * G v = H v)
    (h : IsGroupDelay G w tau) : IsGroupDelay H w (tau + K) := by
  obtain ⟨phi, h1, h2⟩ := h
  refine ⟨fun v => phi v - K * v, ?_, h2.mono fun v hv => ?_⟩
  · have := h1.sub ((hasDerivAt_id w).const_mul (K : ℝ))
    refine this.congr_deriv ?_
    ring
  · have hn : ‖H v‖ = ‖G v‖ := by
      rw [← hG v, norm_mul, show -(I * (v : ℂ) * K) = ((-(v * K) : ℝ) : ℂ) * I by push_cast; ring,
        Complex.norm_exp_ofReal_mul_I, one_mul]
    rw [hn, ← hG v]
    conv_lhs => rw [hv]
    rw [mul_left_comm, ← Complex.exp_add]
    congr 2
    push_cast
    ring

/-! ### Filters given by coefficients -/

/-- The values for a filter in the `ba` representation are the negative derivatives of its phase. -/
theorem C155_coefficients {Z : Type} (b a : List ℝ) (zpk : Option Z) (fs : ℕ) (f : List ℝ) (inSeconds : Bool) :
    ∃ l, getGroupDelay ⟨some (b, a), none, zpk⟩ fs f inSeconds = .ok l ∧ l.length = f.length ∧
      ∀ k < f.length, ∀ w : ℝ, w = 2 * Real.pi * f.getD k 0 / fs → resp b w ≠ 0 → resp a w ≠ 0 →
        ∃ tau, IsGroupDelay (fun v => resp b v / resp a v) w tau ∧
          l.getD k 0 = if inSeconds then tau / fs else tau := by
  refine ⟨_, rfl, by cases inSeconds <;> simp, fun k hk w hw hb ha => ?_⟩
  refine ⟨scipyDelay b a w, ?_, ?_⟩
  · have := (C89_filter b a 1 one_pos w hb ha).1
    rwa [Nat.cast_one, one_mul, ← scipyDelay_eq] at this
  · rw [List.getD_eq_getElem _ _ hk] at hw
    cases inSeconds <;>
      simp [List.getD_eq_getElem?_getD, List.getElem?_map, List.getElem?_eq_getElem hk, hw]

/-! ### Filters given by sections -/

/-- The response of a chain of sections. -/
noncomputable def chain (ss : List (List ℝ)) (v : ℝ) : ℂ :=
  (ss.map fun r => resp (r.take 3) v / resp (r.drop 3) v).prod

theorem chain_eq (ss : List (List ℝ)) (v : ℝ) :
    chain ss v = (ss.map fun r => resp (r.take 3) v).prod / (ss.map fun r => resp (r.drop 3) v).prod := by
  unfold chain
  induction ss with
  | nil => simp
  | cons r ss ih =>
    simp only [List.map_cons, List.prod_cons, ih]
    rw [div_mul_div_comm]

/-- The values for a filter given by sections are the group delays of the chain of the sections, less the zeros at
the beginning of the numerators. -/
theorem C155_sections {Z : Type} (ss : List (List ℝ)) (ba : Option (List ℝ × List ℝ)) (zpk : Option Z) (fs : ℕ)
    (f : List ℝ) (inSeconds : Bool) (ha : ∀ r ∈ ss, (r.drop 3).getD 0 0 ≠ 0) :
    ∃ l, getGroupDelay ⟨ba, some ss, zpk⟩ fs f inSeconds = .ok l ∧ l.length = f.length ∧
      ∀ k < f.length, ∀ w : ℝ, w = 2 * Real.pi * f.getD k 0 / fs →
        (∀ r ∈ ss, resp (r.take 3) w ≠ 0 ∧ resp (r.drop 3) w ≠ 0) →
        ∃ tau, IsGroupDelay (chain ss) w tau ∧
          l.getD k 0 = (if inSeconds then (tau - (ss.map fun r => lead (r.take 3)).sum) / fs
            else tau - (ss.map fun r => lead (r.take 3)).sum) := by
  obtain ⟨l, hl, hlen, hv⟩ := C155_coefficients (sos2tf ss).1 (sos2tf ss).2 zpk fs f inSeconds
  refine ⟨l, hl, hlen, fun k hk w hw hr => ?_⟩
  have hb : ∀ r ∈ ss, ∃ x ∈ r.take 3, x ≠ 0 := fun r h => exists_ne_of_resp _ w (hr r h).1
  have hne : ∀ g : List ℝ → ℂ, (∀ r ∈ ss, g r ≠ 0) → (ss.map g).prod ≠ 0 := by
    intro g hg h0
    obtain ⟨r, h1, h2⟩ := List.mem_map.1 (List.prod_eq_zero_iff.1 h0)
    exact hg r h1 h2
  obtain ⟨h1, h2, -, -⟩ := resp_sos2tf ss hb ha w
  obtain ⟨tau, ht, he⟩ := hv k hk w hw
    (fun h => hne (fun r => resp (r.take 3) w) (fun r h => (hr r h).1) (by rw [← h1, h, mul_zero]))
    (by rw [h2]; exact hne _ fun r h => (hr r h).2)
  refine ⟨tau + ((ss.map fun r => lead (r.take 3)).sum : ℕ), groupDelay_shift _ _ w tau _ (fun v => ?_) ht, ?_⟩
  · obtain ⟨h1, h2, -, -⟩ := resp_sos2tf ss hb ha v
    rw [chain_eq, ← h1, ← h2, mul_div_assoc]
  · rw [he, add_sub_cancel_right]

/-- If no numerator begins with a zero the values are the group delays. -/
theorem C155_sections_partial {Z : Type} (ss : List (List ℝ)) (ba : Option (List ℝ × List ℝ)) (zpk : Option Z) (fs : ℕ)
    (f : List ℝ) (inSeconds : Bool) (ha : ∀ r ∈ ss, (r.drop 3).getD 0 0 ≠ 0)
    (hb : ∀ r ∈ ss, (r.take 3).getD 0 0 ≠ 0) :
    ∃ l, getGroupDelay ⟨ba, some ss, zpk⟩ fs f inSeconds = .ok l ∧ l.length = f.length ∧
      ∀ k < f.length, ∀ w : ℝ, w = 2 * Real.pi * f.getD k 0 / fs →
        (∀ r ∈ ss, resp (r.take 3) w ≠ 0 ∧ resp (r.drop 3) w ≠ 0) →
        ∃ tau, IsGroupDelay (chain ss) w tau ∧ l.getD k 0 = if inSeconds then tau / fs else tau := by
  obtain ⟨l, h1, h2, h3⟩ := C155_sections ss ba zpk fs f inSeconds ha
  refine ⟨l, h1, h2, fun k hk w hw hr => ?_⟩
  obtain ⟨tau, h4, h5⟩ := h3 k hk w hw hr
  have hz : (ss.map fun r => lead (r.take 3)).sum = 0 := by
    rw [List.sum_eq_zero_iff]
    intro x hx
    obtain ⟨r, hr, rfl⟩ := List.mem_map.1 hx
    exact lead_zero _ (hb r hr)
  rw [hz, Nat.cast_zero, sub_zero] at h5
  exact ⟨tau, h4, h5⟩

theorem trimFront_of_head (l : List ℝ) (h : l.getD 0 0 ≠ 0) : trimFront l = l := by
  classical
  cases l with
  | nil => simp at h
  | cons x l =>
    have : (x :: l).dropWhile (· = 0) = x :: l := by
      rw [List.dropWhile_cons, if_neg (by simpa using h)]
    unfold trimFront
    rw [if_neg]
    · convert this
    · intro he
      have he' : (x :: l).dropWhile (· = 0) = [] := by convert he
      rw [this] at he'
      cases he'

theorem scipyDelay_re (b a : List ℝ) (w : ℝ) (hb : resp b w ≠ 0) (ha : resp a w ≠ 0) :
    scipyDelay b a w = (ramp b w / resp b w).re - (ramp a w / resp a w).re := by
  rw [scipyDelay_eq, delayAt_eq b a 1 w hb ha, Nat.cast_one, div_one]

theorem ratio_convolve (x y : List ℝ) (w : ℝ) (hx : resp x w ≠ 0) (hy : resp y w ≠ 0) :
    ramp (convolve x y) w / resp (convolve x y) w = ramp x w / resp x w + ramp y w / resp y w := by
  rw [ramp_convolve, resp_convolve]
  field_simp

theorem scipyDelay_sum (ss : List (List ℝ)) (ha : ∀ r ∈ ss, (r.drop 3).getD 0 0 ≠ 0) (w : ℝ)
    (hr : ∀ r ∈ ss, resp (r.take 3) w ≠ 0 ∧ resp (r.drop 3) w ≠ 0) :
    scipyDelay (sos2tf ss).1 (sos2tf ss).2 w =
      (ss.map fun r => scipyDelay (sos2tf [r]).1 (sos2tf [r]).2 w).sum := by
  have hone : ∀ x : List ℝ, convolve [1] x = x := by
    intro x
    unfold convolve
    refine LFilter.ext_getD _ _ (by simp) fun n hn => ?_
    have hn' : n < x.length := by simpa using hn
    rw [LFilter.getD_map_range, if_pos (by simpa using hn'), sum_range_succ', sum_eq_zero]
    · simp
    · intro i _; simp
  have h1 : trimFront [1] = [1] := trimFront_of_head _ (by simp)
  have hsing : ∀ r, (r.drop 3).getD 0 0 ≠ 0 → sos2tf [r] = (trimFront (r.take 3), r.drop 3) := by
    intro r hr
    unfold sos2tf
    simp only [List.foldl_cons, List.foldl_nil, polymul, h1, hone]
    rw [trimFront_of_head (r.drop 3) hr]
  induction ss using List.reverseRecOn with
  | nil =>
    simp only [List.map_nil, List.sum_nil]
    have hr1 : resp [1] w = 1 := by simp [resp]
    have : sos2tf [] = ([1], [1]) := rfl
    rw [this, scipyDelay_re _ _ _ (by rw [hr1]; exact one_ne_zero) (by rw [hr1]; exact one_ne_zero), sub_self]
  | append_singleton ss r ih =>
    have ih' := ih (fun q hq => ha q (by simp [hq])) (fun q hq => hr q (by simp [hq]))
    have har := ha r (by simp)
    obtain ⟨hb0, ha0⟩ := hr r (by simp)
    have hbs : ∀ q ∈ ss, ∃ x ∈ q.take 3, x ≠ 0 := fun q hq => exists_ne_of_resp _ w (hr q (by simp [hq])).1
    obtain ⟨e1, e2, e3, e4⟩ := resp_sos2tf ss hbs (fun q hq => ha q (by simp [hq])) w
    have hne : ∀ g : List ℝ → ℂ, (∀ r ∈ ss, g r ≠ 0) → (ss.map g).prod ≠ 0 := by
      intro g hg h0
      obtain ⟨r, h1, h2⟩ := List.mem_map.1 (List.prod_eq_zero_iff.1 h0)
      exact hg r h1 h2
    have hB : resp (sos2tf ss).1 w ≠ 0 := fun h =>
      hne (fun r => resp (r.take 3) w) (fun q hq => (hr q (by simp [hq])).1) (by rw [← e1, h, mul_zero])
    have hA : resp (sos2tf ss).2 w ≠ 0 := by
      rw [e2]; exact hne _ fun q hq => (hr q (by simp [hq])).2
    have hs : sos2tf (ss ++ [r]) =
        (convolve (sos2tf ss).1 (trimFront (r.take 3)), convolve (sos2tf ss).2 (r.drop 3)) := by
      have : sos2tf (ss ++ [r]) = (polymul (sos2tf ss).1 (r.take 3), polymul (sos2tf ss).2 (r.drop 3)) := by
        unfold sos2tf; rw [List.foldl_append]; rfl
      rw [this]
      unfold polymul
      rw [trimFront_of_head _ e3, trimFront_of_head _ e4, trimFront_of_head _ har]
    have hb' : resp (trimFront (r.take 3)) w ≠ 0 := by
      intro h
      apply hb0
      rw [resp_trimFront _ (exists_ne_of_resp _ w hb0) w, h, mul_zero]
    rw [List.map_append, List.sum_append, ← ih', List.map_singleton, List.sum_singleton, hs, hsing r har]
    dsimp only
    rw [scipyDelay_re _ _ _ hB hA, scipyDelay_re _ _ _ hb' ha0,
      scipyDelay_re _ _ _ (by rw [resp_convolve]; exact mul_ne_zero hB hb')
        (by rw [resp_convolve]; exact mul_ne_zero hA ha0),
      ratio_convolve _ _ w hB hb', ratio_convolve _ _ w hA ha0, Complex.add_re, Complex.add_re]
    ring

/-- The values for a filter given by sections are the sums of the values for filters with one of the sections. -/
theorem C155_sum {Z : Type} (ss : List (List ℝ)) (ba : Option (List ℝ × List ℝ)) (zpk : Option Z) (fs : ℕ)
    (f : List ℝ) (inSeconds : Bool) (ha : ∀ r ∈ ss, (r.drop 3).getD 0 0 ≠ 0) :
    ∃ (l : List ℝ) (g : List ℝ → List ℝ), getGroupDelay ⟨ba, some ss, zpk⟩ fs f inSeconds = .ok l ∧
      (∀ r ∈ ss, getGroupDelay (⟨none, some [r], none⟩ : FilterCoeffs.Stored ℝ Z) fs f inSeconds = .ok (g r)) ∧
      ∀ k < f.length, (∀ r ∈ ss, resp (r.take 3) (2 * Real.pi * f.getD k 0 / fs) ≠ 0 ∧
          resp (r.drop 3) (2 * Real.pi * f.getD k 0 / fs) ≠ 0) →
        l.getD k 0 = (ss.map fun r => (g r).getD k 0).sum := by
  refine ⟨let gd := f.map fun x => scipyDelay (sos2tf ss).1 (sos2tf ss).2 (2 * Real.pi * x / fs)
    if inSeconds then gd.map (· / (fs : ℝ)) else gd, fun r => let gd := f.map fun x => scipyDelay (sos2tf [r]).1 (sos2tf [r]).2 (2 * Real.pi * x / fs)
    if inSeconds then gd.map (· / (fs : ℝ)) else gd, rfl, fun r _ => rfl, fun k hk hr => ?_⟩
  have hs := scipyDelay_sum ss ha _ hr
  rw [List.getD_eq_getElem _ _ hk] at hs
  cases inSeconds
  · simp [List.getD_eq_getElem?_getD, List.getElem?_map, List.getElem?_eq_getElem hk, hs]
  · simp only [if_true, List.getD_eq_getElem?_getD, List.getElem?_map, List.getElem?_eq_getElem hk, Option.map_some,
      Option.getD_some, hs]
    rw [div_eq_mul_inv, ← List.sum_map_mul_right]
    simp [div_eq_mul_inv]

/-- A delay of one sample as a section: the group delay is 0. -/
theorem C155_delay_lost_wrong :
    ∃ (ss : List (List ℝ)) (w : ℝ), IsGroupDelay (chain ss) w 1 ∧
      ∀ (Z : Type) (fs : ℕ) (f : ℝ), getGroupDelay (⟨none, some ss, none⟩ : FilterCoeffs.Stored ℝ Z) fs [f] true =
        .ok [0] := by
  refine ⟨[[0, 1, 0, 1, 0, 0]], 0, ⟨fun v => -v, ?_, ?_⟩, fun Z fs f => ?_⟩
  · exact (hasDerivAt_id (0 : ℝ)).neg
  · refine Eventually.of_forall fun v => ?_
    have h : chain [[0, 1, 0, 1, 0, 0]] v = exp (I * ((-v : ℝ) : ℂ)) := by
      simp [chain, resp, sum_range_succ]
    rw [h, mul_comm I, Complex.norm_exp_ofReal_mul_I]
    simp
  · have h1 : sos2tf [[0, 1, 0, 1, 0, 0]] = ([1, 0], [1, 0, 0]) := by
      have t1 : trimFront [0, 1, 0] = [1, 0] := by simp [trimFront]
      have t2 : trimFront [1, 0, 0] = [1, 0, 0] := trimFront_of_head _ (by simp)
      have t3 : trimFront [1] = [1] := trimFront_of_head _ (by simp)
      simp only [sos2tf, List.foldl_cons, List.foldl_nil, polymul, List.take, List.drop, t1, t2, t3]
      simp [convolve, List.range_succ, sum_range_succ]
    have h2 : ∀ w : ℝ, scipyDelay [1, 0] [1, 0, 0] w = 0 := by
      intro w
      have r1 : resp [1, 0] w = 1 := by simp [resp, sum_range_succ]
      have r2 : resp [1, 0, 0] w = 1 := by simp [resp, sum_range_succ]
      rw [scipyDelay_re _ _ _ (by rw [r1]; exact one_ne_zero) (by rw [r2]; exact one_ne_zero)]
      simp [ramp, sum_range_succ]
    unfold getGroupDelay getBa
    simp only [h1, List.map_cons, List.map_nil, h2, if_true, zero_div]

/-! ### Linear phase -/

/-- Symmetric and antisymmetric FIR filters delay all frequencies by half of their order. -/
theorem C155_linear_phase {Z : Type} (b : List ℝ) (s : ℝ) (hs : s = 1 ∨ s = -1) (hb : b.reverse = b.map (s * ·))
    (zpk : Option Z) (fs : ℕ) (f : List ℝ) (inSeconds : Bool) :
    ∃ l, getGroupDelay ⟨some (b, [1]), none, zpk⟩ fs f inSeconds = .ok l ∧ l.length = f.length ∧
      ∀ k < f.length, resp b (2 * Real.pi * f.getD k 0 / fs) ≠ 0 →
        l.getD k 0 = (if inSeconds then ((b.length - 1 : ℕ) : ℝ) / 2 / fs else ((b.length - 1 : ℕ) : ℝ) / 2) := by
  refine ⟨_, rfl, by cases inSeconds <;> simp, fun k hk hne => ?_⟩
  have key : ∀ w : ℝ, resp b w ≠ 0 → scipyDelay b [1] w = ((b.length - 1 : ℕ) : ℝ) / 2 := by
    intro w hw
    have hs0 : (s : ℂ) ≠ 0 := by rcases hs with rfl | rfl <;> simp
    have hm : ∀ g : ℕ → ℂ, ∑ n ∈ range (b.map (s * ·)).length, (((b.map (s * ·)).getD n 0 : ℝ) : ℂ) * g n =
        s * ∑ n ∈ range b.length, (b.getD n 0 : ℂ) * g n := by
      intro g
      rw [List.length_map, mul_sum]
      refine sum_congr rfl fun n hn => ?_
      have hn := mem_range.1 hn
      rw [List.getD_eq_getElem _ _ (by simpa using hn), List.getD_eq_getElem _ _ hn, List.getElem_map]
      push_cast
      ring
    have r1 : resp b.reverse w = s * resp b w := by rw [hb]; exact hm fun n => exp (-(I * w * n))
    have r2 : ramp b.reverse w = s * ramp b w := by
      rw [hb]
      have := hm fun n => (n : ℂ) * exp (-(I * w * n))
      unfold ramp
      rw [show ∀ c : List ℝ, ∑ n ∈ range c.length, (n * c.getD n 0 : ℂ) * exp (-(I * w * n)) =
        ∑ n ∈ range c.length, (c.getD n 0 : ℂ) * (n * exp (-(I * w * n))) from
          fun c => sum_congr rfl fun n _ => by ring]
      rw [show ∀ c : List ℝ, ∑ n ∈ range c.length, (n * c.getD n 0 : ℂ) * exp (-(I * w * n)) =
        ∑ n ∈ range c.length, (c.getD n 0 : ℂ) * (n * exp (-(I * w * n))) from
          fun c => sum_congr rfl fun n _ => by ring]
      exact this
    rw [resp_reverse] at r1
    rw [ramp_reverse] at r2
    set E := exp (-(I * w * ((b.length - 1 : ℕ) : ℂ)))
    have hE : E ≠ 0 := Complex.exp_ne_zero _
    have hc : (starRingEnd ℂ) (resp b w) ≠ 0 := (map_ne_zero _).2 hw
    have h : ramp b w / resp b w = ((b.length - 1 : ℕ) : ℂ) - (starRingEnd ℂ) (ramp b w / resp b w) := by
      conv_lhs => rw [← mul_div_mul_left _ _ hs0, ← r1, ← r2, mul_div_mul_left _ _ hE, sub_div,
        mul_div_cancel_right₀ _ hc, ← map_div₀]
    have hre := congrArg Complex.re h
    rw [Complex.sub_re, Complex.conj_re, Complex.natCast_re] at hre
    have r3 : resp [1] w = 1 := by simp [resp]
    have r4 : ramp [1] w = 0 := by simp [ramp]
    rw [scipyDelay_re b [1] w hw (by rw [r3]; exact one_ne_zero), r4, zero_div, Complex.zero_re]
    linarith
  have := key _ hne
  rw [List.getD_eq_getElem _ _ hk] at this
  cases inSeconds <;>
    simp [List.getD_eq_getElem?_getD, List.getElem?_map, List.getElem?_eq_getElem hk, this]

/-- Where the response of a filter is zero the group delay is 0, for a symmetric filter too. -/
theorem C155_zero_wrong (Z : Type) (fs : ℕ) (hfs : 0 < fs) :
    ([1, 1] : List ℝ).reverse = [1, 1].map (1 * ·) ∧
    getGroupDelay (⟨some ([1, 1], [1]), none, none⟩ : FilterCoeffs.Stored ℝ Z) fs [0, fs / 2] false =
      .ok [1 / 2, 0] := by
  have hfs' : (fs : ℝ) ≠ 0 := by exact_mod_cast hfs.ne'
  refine ⟨by simp, ?_⟩
  obtain ⟨l, h1, h2, h3⟩ := C155_linear_phase (Z := Z) [1, 1] 1 (Or.inl rfl) (by simp) none fs [0, fs / 2] false
  rw [h1]
  have h4 : l = [l.getD 0 0, l.getD 1 0] := by
    match l, h2 with
    | [x, y], _ => rfl
  have h5 := h3 0 (by simp) (by simp [resp, sum_range_succ])
  have h6 : l.getD 1 0 = 0 := by
    have : getGroupDelay (⟨some ([1, 1], [1]), none, none⟩ : FilterCoeffs.Stored ℝ Z) fs [0, fs / 2] false =
      .ok [scipyDelay [1, 1] [1] (2 * Real.pi * 0 / fs), scipyDelay [1, 1] [1] (2 * Real.pi * (fs / 2) / fs)] := rfl
    rw [this] at h1
    cases h1
    have hw : 2 * Real.pi * (fs / 2) / fs = Real.pi := by field_simp
    simp only [hw]
    have hz : resp [1, 1] Real.pi = 0 := by
      have : exp (-(I * Real.pi)) = -1 := by
        rw [Complex.exp_neg, mul_comm, Complex.exp_pi_mul_I]; norm_num
      simp [resp, sum_range_succ, this]
    show scipyDelay [1, 1] [1] Real.pi = 0
    rw [scipyDelay_eq]
    exact C89_zero [1, 1] [1] 1 Real.pi hz
  rw [h4, h5, h6]
  norm_num

/-! ### All-passes -/

/-- A stable all-pass delays every frequency. -/
theorem C155_allpass {Z : Type} (a : List ℝ) (h2 : 2 ≤ a.length)
    (hst : ∀ z : ℂ, ‖z‖ ≤ 1 → ∑ n ∈ range a.length, (a.getD n 0 : ℂ) * z ^ n ≠ 0)
    (zpk : Option Z) (fs : ℕ) (hfs : 0 < fs) (f : List ℝ) (inSeconds : Bool) :
    ∃ l, getGroupDelay ⟨some (a.reverse, a), none, zpk⟩ fs f inSeconds = .ok l ∧ l.length = f.length ∧
      ∀ k < f.length, 0 < l.getD k 0 := by
  refine ⟨_, rfl, by cases inSeconds <;> simp, fun k hk => ?_⟩
  have key : ∀ w : ℝ, 0 < scipyDelay a.reverse a w := by
    intro w
    set u := exp (-(I * w)) with hu
    have hun : ‖u‖ = 1 := by
      rw [hu, show -(I * (w : ℂ)) = ((-w : ℝ) : ℂ) * I by push_cast; ring, Complex.norm_exp_ofReal_mul_I]
    have hue : ∀ n : ℕ, exp (-(I * w * n)) = u ^ n := fun n => by
      rw [hu, ← Complex.exp_nat_mul]; congr 1; ring
    set P : Polynomial ℂ := ∑ n ∈ range a.length, Polynomial.monomial n (a.getD n 0 : ℂ) with hP
    have heval : ∀ z, P.eval z = ∑ n ∈ range a.length, (a.getD n 0 : ℂ) * z ^ n := by
      intro z; rw [hP, Polynomial.eval_finsetSum]; simp
    have hder : u * P.derivative.eval u = ramp a w := by
      rw [hP, Polynomial.derivative_sum, Polynomial.eval_finsetSum, mul_sum]
      unfold ramp
      refine sum_congr rfl fun n _ => ?_
      rw [Polynomial.derivative_monomial, Polynomial.eval_monomial, hue]
      rcases n with _ | n
      · simp
      · rw [Nat.add_sub_cancel, pow_succ]; push_cast; ring
    have hresp : P.eval u = resp a w := by
      rw [heval]; unfold resp; exact sum_congr rfl fun n _ => by rw [hue]
    have hPu : P.eval u ≠ 0 := by rw [heval]; exact hst u hun.le
    have hra : resp a w ≠ 0 := hresp ▸ hPu
    have hdeg : P.natDegree ≤ a.length - 1 := by
      rw [hP]
      refine Polynomial.natDegree_sum_le_of_forall_le _ _ fun n hn => ?_
      exact (Polynomial.natDegree_monomial_le _).trans (by have := mem_range.1 hn; omega)
    have hlog := (IsAlgClosed.splits P).eval_derivative_div_eval_of_ne_zero hPu
    have hP0 : P ≠ 0 := fun h => hPu (by rw [h]; simp)
    have hq : ramp a w / resp a w = (P.roots.map fun z => u * (1 / (u - z))).sum := by
      rw [Multiset.sum_map_mul_left, ← hlog, ← hder, ← hresp, mul_div_assoc]
    have hroot : ∀ z ∈ P.roots, (u * (1 / (u - z))).re < 1 / 2 := by
      intro z hz
      have hz0 : P.eval z = 0 := (Polynomial.mem_roots hP0).1 hz
      have hzn : 1 < ‖z‖ := by
        by_contra hc
        rw [heval] at hz0
        exact hst z (not_lt.1 hc) hz0
      have hne : u - z ≠ 0 := by
        intro h
        rw [sub_eq_zero] at h
        rw [← h, hun] at hzn
        exact lt_irrefl _ hzn
      have hns : 0 < Complex.normSq (u - z) := Complex.normSq_pos.2 hne
      have h1 : (u * (1 / (u - z))).re = (u.re * (u.re - z.re) + u.im * (u.im - z.im)) / Complex.normSq (u - z) := by
        rw [one_div, Complex.mul_re, Complex.inv_re, Complex.inv_im, Complex.sub_re, Complex.sub_im]
        ring
      rw [h1, div_lt_iff₀ hns, Complex.normSq_apply, Complex.sub_re, Complex.sub_im]
      have e1 : u.re * u.re + u.im * u.im = 1 := by
        rw [← Complex.normSq_apply, Complex.normSq_eq_norm_sq, hun]; norm_num
      have e2 : 1 < z.re * z.re + z.im * z.im := by
        rw [← Complex.normSq_apply, Complex.normSq_eq_norm_sq]; nlinarith
      nlinarith
    have hsum : ∀ m : Multiset ℂ, (∀ z ∈ m, (u * (1 / (u - z))).re < 1 / 2) →
        ((m.map fun z => u * (1 / (u - z))).sum).re ≤ (Multiset.card m : ℝ) / 2 ∧
        (0 < Multiset.card m → ((m.map fun z => u * (1 / (u - z))).sum).re < (Multiset.card m : ℝ) / 2) := by
      intro m
      induction m using Multiset.induction_on with
      | empty => intro _; simp
      | cons z m ih =>
        intro h
        obtain ⟨i1, -⟩ := ih fun y hy => h y (Multiset.mem_cons_of_mem hy)
        have hz := h z (Multiset.mem_cons_self z m)
        rw [Multiset.map_cons, Multiset.sum_cons, Complex.add_re, Multiset.card_cons]
        push_cast
        exact ⟨by linarith, fun _ => by linarith⟩
    obtain ⟨s1, s2⟩ := hsum P.roots hroot
    rw [← hq] at s1 s2
    have hcard : (Multiset.card P.roots : ℝ) ≤ ((a.length - 1 : ℕ) : ℝ) := by
      exact_mod_cast (Polynomial.card_roots' P).trans hdeg
    have hN : (1 : ℝ) ≤ ((a.length - 1 : ℕ) : ℝ) := by exact_mod_cast (by omega : 1 ≤ a.length - 1)
    have hlt : (ramp a w / resp a w).re < ((a.length - 1 : ℕ) : ℝ) / 2 := by
      rcases Nat.eq_zero_or_pos (Multiset.card P.roots) with h0 | h0
      · rw [h0, Nat.cast_zero] at s1; linarith
      · have := s2 h0; linarith
    have hE : exp (-(I * w * ((a.length - 1 : ℕ) : ℂ))) ≠ 0 := Complex.exp_ne_zero _
    have hc : (starRingEnd ℂ) (resp a w) ≠ 0 := (map_ne_zero _).2 hra
    rw [scipyDelay_re _ _ w (by rw [resp_reverse]; exact mul_ne_zero hE hc) hra, resp_reverse, ramp_reverse,
      mul_div_mul_left _ _ hE, sub_div, mul_div_cancel_right₀ _ hc, ← map_div₀, Complex.sub_re, Complex.conj_re,
      Complex.natCast_re]
    linarith
  have := key (2 * Real.pi * f[k] / fs)
  have hfs' : (0 : ℝ) < fs := by exact_mod_cast hfs
  cases inSeconds <;>
    simp [List.getD_eq_getElem?_getD, List.getElem?_map, List.getElem?_eq_getElem hk, this, hfs']

/-- A section whose hypotheses hold at all frequencies, and an all-pass of first order. -/
example (w : ℝ) : ((([1, 0, 0, 1, -1/2, 0] : List ℝ).drop 3).getD 0 0 ≠ 0) ∧
    resp (([1, 0, 0, 1, -1/2, 0] : List ℝ).take 3) w ≠ 0 ∧ resp (([1, 0, 0, 1, -1/2, 0] : List ℝ).drop 3) w ≠ 0 := by
  refine ⟨by simp, by simp [resp, sum_range_succ], ?_⟩
  have h : resp (([1, 0, 0, 1, -1/2, 0] : List ℝ).drop 3) w = 1 - (1 / 2) * exp (-(I * w)) := by
    simp [resp, sum_range_succ]; ring
  rw [h]
  intro h0
  have : ‖(1 / 2 : ℂ) * exp (-(I * w))‖ = 1 := by
    rw [← sub_eq_zero.1 h0]; simp
  rw [norm_mul, show -(I * (w : ℂ)) = ((-w : ℝ) : ℂ) * I by push_cast; ring, Complex.norm_exp_ofReal_mul_I] at this
  norm_num at this

example : ∀ z : ℂ, ‖z‖ ≤ 1 → ∑ n ∈ range ([1, 1/2] : List ℝ).length, (([1, 1/2] : List ℝ).getD n 0 : ℂ) * z ^ n ≠ 0 := by
  intro z hz h0
  simp [sum_range_succ] at h0
  have h1 : (2 : ℂ)⁻¹ * z = -1 := by linear_combination h0
  have := congrArg norm h1
  rw [norm_mul] at this
  norm_num at this
  linarith

end Verif.GroupDelay
