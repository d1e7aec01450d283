import Verif.Lemmas.KautzBasis
import Verif.Props.C71

/-!
# C110: Kautz filters
-/

namespace Verif.Props.C110

open Kautz PowerSeries Bank Filter Topology

/-- The calls on the realtime interface among all calls. -/
def ops (h : List Call) : List (Op ℝ) := h.filterMap fun c => match c with
  | .op o => some o
  | _ => none

/-- The unit impulse of `n` samples. -/
def impulse (n : ℕ) : List ℝ := (List.range n).map fun (k : ℕ) => if k = 0 then 1 else 0

/-- Impulse response of tap `i`: sample `n` of column `i` when an impulse is filtered with all
coefficients equal to 1. -/
noncomputable def tap (ss : List Section) (i n : ℕ) : ℝ :=
  ((columns ss (List.replicate (total ss) 1) (impulse (n + 1))).getD i []).getD n 0

theorem impulse_series (n : ℕ) (hn : 0 < n) : zseries (impulse n) = 1 := by
  ext k
  rw [zseries_coeff, impulse, LFilter.getD_map_range, coeff_one]
  split_ifs <;> first | rfl | omega

theorem getD_ones (m i : ℕ) (hi : i < m) : (List.replicate m (1 : ℝ)).getD i 0 = 1 := by
  rw [List.getD_eq_getElem _ _ (by simpa using hi)]
  simp

theorem tap_eq (ss : List Section) (i n : ℕ) (hi : i < total ss) :
    tap ss i n = coeff n ((gains ss).getD i 0) := by
  unfold tap
  rw [((columns_spec ss _ (impulse (n + 1))).2 i hi).2 n (by simp [impulse]),
    impulse_series _ (by omega), getD_ones _ _ hi, mul_one, mul_one]

theorem filterVector_getD (ss : List Section) (c x : List ℝ) (n : ℕ) (hn : n < x.length) :
    (filterVector ss c x).getD n 0 =
      ∑ i ∈ Finset.range (total ss), c.getD i 0 * coeff n ((gains ss).getD i 0 * zseries x) := by
  obtain ⟨h1, h2⟩ := columns_spec ss c x
  unfold filterVector
  rw [LFilter.getD_map_range, if_pos hn, list_sum_eq _ [], h1]
  refine Finset.sum_congr rfl fun i hi => ?_
  rw [(h2 i (Finset.mem_range.1 hi)).2 n hn, mul_comm]

/-! ### Stable poles -/

theorem create_ok {poles : List ℂ} {o : Obj} (h : create poles = .ok o) :
    o = ofSections (sections poles) ∧ ∀ s ∈ sections poles, s.Stable := by
  unfold create at h
  split_ifs at h with h1 h2
  refine ⟨(Except.ok.inj h).symm, fun s hs => ?_⟩
  push Not at h2
  simp only [sections, List.mem_append, List.mem_map, List.mem_filter] at hs
  rcases hs with ⟨p, hp, rfl⟩ | ⟨p, hp, rfl⟩
  · have h3 := h2 p hp.1
    exact (Complex.abs_re_le_norm p).trans_lt h3
  · exact ⟨p, h2 p hp.1, rfl, rfl⟩

/-- Poles below the real axis or outside of the open unit disc are refused, as are coefficients of
the wrong number; all other poles are accepted. -/
theorem C110_refused (poles : List ℂ) :
    ((∃ p ∈ poles, p.im < 0 ∨ 1 ≤ ‖p‖) ↔ create poles = .error .assertionError) ∧
    (∀ o, create poles = .ok o → total o.sections =
        (poles.filter fun p => p.im = 0).length + 2 * (poles.filter fun p => ¬ p.im = 0).length) ∧
    ∀ o : Obj, ∀ c : List ℝ, c.length ≠ total o.sections →
      setCoefficients o c = .error .assertionError := by
  classical
  refine ⟨?_, ?_, fun o c hc => by unfold setCoefficients; rw [if_pos hc]⟩
  · constructor
    · rintro ⟨p, hp, h⟩
      unfold create
      by_cases h1 : ∃ p ∈ poles, p.im < 0
      · rw [if_pos h1]
      · rw [if_neg h1, if_pos]
        rcases h with h | h
        · exact absurd ⟨p, hp, h⟩ h1
        · exact ⟨p, hp, h⟩
    · intro h
      unfold create at h
      split_ifs at h with h1 h2
      · obtain ⟨p, hp, h⟩ := h1
        exact ⟨p, hp, Or.inl h⟩
      · obtain ⟨p, hp, h⟩ := h2
        exact ⟨p, hp, Or.inr h⟩
  · intro o ho
    rw [(create_ok ho).1]
    simp only [ofSections, total, sections, List.map_append, List.map_map, List.sum_append]
    have e1 : ∀ l : List ℂ, (l.map (Section.taps ∘ fun p => Section.real p.re)).sum = l.length := by
      intro l
      induction l with
      | nil => rfl
      | cons a l ih =>
        rw [List.map_cons, List.sum_cons, ih]
        simp [Section.taps]
        omega
    have e2 : ∀ l : List ℂ, (l.map (Section.taps ∘ fun p => Section.pair (-2 * p.re) (‖p‖ ^ 2))).sum =
        2 * l.length := by
      intro l
      induction l with
      | nil => rfl
      | cons a l ih =>
        rw [List.map_cons, List.sum_cons, ih]
        simp [Section.taps]
        omega
    rw [e1, e2]

/-! ### Sample by sample -/

theorem fit_coeffs (ss : List Section) (c : List ℝ) (st : (bank ss).State) (ir : List ℝ) :
    ∃ c', (fitCoefficients ⟨ss, c, st⟩ ir).2 = ⟨ss, c', st⟩ ∧ c'.length = total ss := by
  unfold fitCoefficients setCoefficients
  simp only [List.length_replicate, ne_eq, not_true_eq_false, if_false]
  have hcl : ((columns ss (List.replicate (total ss) 1) ir.reverse).map
      fun l => l.getD (ir.length - 1) 0).length = total ss := by
    rw [List.length_map, (columns_spec _ _ _).1]
  split_ifs with h1
  · exact ⟨_, rfl, by simp⟩
  · exact ⟨_, rfl, hcl⟩

theorem after_eq (ss : List Section) (c0 : List ℝ) (hc0 : c0.length = total ss) (h : List Call) :
    ∃ c, after ⟨ss, c0, (bank ss).init⟩ h = ⟨ss, c, (bank ss).after (ops h)⟩ ∧ c.length = total ss := by
  induction h using List.reverseRecOn with
  | nil => exact ⟨c0, rfl, hc0⟩
  | append_singleton h a ih =>
    obtain ⟨c, hc, hl⟩ := ih
    have e : after ⟨ss, c0, (bank ss).init⟩ (h ++ [a]) = exec (after ⟨ss, c0, (bank ss).init⟩ h) a := by
      unfold after
      rw [List.foldl_append]
      rfl
    rw [e, hc]
    have eo : ops (h ++ [a]) = ops h ++ ops [a] := by simp [ops, List.filterMap_append]
    rw [eo]
    cases a with
    | op o =>
      have : ops [Call.op o] = [o] := rfl
      rw [this, RTFilter.after_snoc]
      refine ⟨c, ?_, hl⟩
      cases o <;> rfl
    | coefficients c' =>
      have : ops [Call.coefficients c'] = [] := rfl
      rw [this, List.append_nil]
      simp only [exec, setCoefficients]
      split_ifs with h1
      · exact ⟨c, rfl, hl⟩
      · exact ⟨c', rfl, not_not.1 h1⟩
    | fit ir =>
      have : ops [Call.fit ir] = [] := rfl
      rw [this, List.append_nil]
      obtain ⟨c', h1, h2⟩ := fit_coeffs ss c ((bank ss).after (ops h)) ir
      exact ⟨c', h1, h2⟩

theorem weighted_eq (c t : List ℝ) (h : c.length = t.length) :
    weighted c t = ∑ i ∈ Finset.range t.length, c.getD i 0 * t.getD i 0 := by
  unfold weighted
  induction t generalizing c with
  | nil => simp
  | cons a t ih =>
    cases c with
    | nil => simp at h
    | cons b c =>
      rw [List.zipWith_cons_cons, List.sum_cons, ih c (by simpa using h), List.length_cons,
        Finset.sum_range_succ']
      simp
      ring

/-- **Streaming equals block filtering.**  After every history of calls (samples on all channels,
resets, changes of the number of channels, new coefficients and fits in any order) `process_sample`
on an existing channel returns the last sample of `filter_signal` with the current coefficients,
applied to all samples of this channel since the last reset.  Setting or fitting coefficients does
not disturb the states and other channels do not matter. -/
theorem C110_streaming (poles : List ℂ) (o : Obj) (ho : create poles = .ok o) (h : List Call) (x : ℝ)
    (ch : ℕ) (hch : ch < nChannels (ops h)) :
    (after o h).sections = o.sections ∧
    (process (after o h) x ch).1 = .ok ((filterVector o.sections (after o h).coeffs
      ((pastInputs ch (ops h)).reverse ++ [x])).getD (pastInputs ch (ops h)).length 0) := by
  rw [(create_ok ho).1]
  obtain ⟨c, hc, hl⟩ := after_eq (sections poles) (List.replicate (total (sections poles)) 1) (by simp) h
  unfold ofSections
  rw [hc]
  refine ⟨rfl, ?_⟩
  simp only [process]
  rw [filterVector_getD _ _ _ _ (by simp)]
  by_cases hs : sections poles = []
  · have : ∀ ss : List Section, ss = [] → ∀ st : (bank ss).State,
        ((bank ss).process st x ch).1 = .ok [] ∧ total ss = 0 := by
      rintro ss rfl st
      exact ⟨rfl, rfl⟩
    obtain ⟨h1, h2⟩ := this _ hs ((bank (sections poles)).after (ops h))
    rw [h1, h2]
    simp [Except.map, weighted]
  · have hb := (bank_implements _ hs).answer (ops h) x ch hch
    unfold RTFilter.answer at hb
    rw [hb]
    simp only [Except.map]
    rw [weighted_eq _ _ (by simp [hl, gains_length]), List.length_map, gains_length]
    congr 1
    refine Finset.sum_congr rfl fun i hi => ?_
    have hg : i < (gains (sections poles)).length := by
      rw [gains_length]
      exact Finset.mem_range.1 hi
    congr 1
    rw [List.getD_eq_getElem _ _ (by simpa using hg), List.getElem_map, List.getD_eq_getElem _ _ hg]
    simp [lastOut]

/-- A channel that does not exist raises IndexError as soon as there is a pole. -/
theorem C110_bad_channel (poles : List ℂ) (o : Obj) (ho : create poles = .ok o) (hp : poles ≠ [])
    (h : List Call) (x : ℝ) (ch : ℕ) (hch : nChannels (ops h) ≤ ch) :
    (process (after o h) x ch).1 = .error .indexError := by
  rw [(create_ok ho).1]
  obtain ⟨c, hc, hl⟩ := after_eq (sections poles) (List.replicate (total (sections poles)) 1) (by simp) h
  unfold ofSections
  rw [hc]
  have hs : sections poles ≠ [] := by
    obtain ⟨p, ps, rfl⟩ := List.exists_cons_of_ne_nil hp
    by_cases h0 : p.im = 0 <;> simp [sections, h0]
  have hb := (bank_implements _ hs).refused (ops h) x ch hch
  unfold RTFilter.answer at hb
  simp only [process, hb]
  rfl

/-- **The number of channels is lost.**  `fit_poles_and_coefficients_to_ir` builds new filters with
one channel: whatever the number of channels was before, the second channel does not exist any
more. -/
theorem C110_channels_lost (o : Obj) (poles : List ℂ) (hp : poles ≠ []) (ir : List ℝ) (x : ℝ) (ch : ℕ)
    (hch : 1 ≤ ch) :
    (process (fitPoles (exec o (.op (.setChannels (ch + 1)))) poles ir).2 x ch).1 =
      .error .indexError := by
  unfold fitPoles ofSections
  obtain ⟨c', h1, h2⟩ := fit_coeffs (sections poles) (List.replicate _ 1) (bank (sections poles)).init ir
  rw [h1]
  have hs : sections poles ≠ [] := by
    obtain ⟨p, ps, rfl⟩ := List.exists_cons_of_ne_nil hp
    by_cases h0 : p.im = 0 <;> simp [sections, h0]
  have hb := (bank_implements _ hs).refused [] x ch hch
  unfold RTFilter.answer at hb
  rw [RTFilter.after_nil] at hb
  simp only [process, hb]
  rfl

/-! ### The basis -/

/-- **Orthonormal basis.**  The impulse responses of the taps are orthonormal: the inner products
of their first `N` samples converge to 1 for the same tap and to 0 for two different taps. -/
theorem C110_orthonormal (poles : List ℂ) (o : Obj) (ho : create poles = .ok o) (i j : ℕ)
    (hi : i < total o.sections) (hj : j < total o.sections) :
    Tendsto (fun N => ∑ n ∈ Finset.range N, tap o.sections i n * tap o.sections j n) atTop
      (𝓝 (if i = j then 1 else 0)) := by
  obtain ⟨rfl, hs⟩ := create_ok ho
  have := orthonormal (sections poles) hs i j (by rw [gains_length]; exact hi)
    (by rw [gains_length]; exact hj)
  refine this.congr fun N => Finset.sum_congr rfl fun n _ => ?_
  have e : (ofSections (sections poles)).sections = sections poles := rfl
  rw [e] at hi hj ⊢
  rw [tap_eq _ _ _ hi, tap_eq _ _ _ hj]

/-- **Energy.**  At every time the squares of the taps sum to at most the energy of the input up to
that time. -/
theorem C110_energy (poles : List ℂ) (o : Obj) (ho : create poles = .ok o) (x : List ℝ) (n : ℕ)
    (hn : n < x.length) :
    ∑ i ∈ Finset.range (total o.sections),
      ((columns o.sections (List.replicate (total o.sections) 1) x).getD i []).getD n 0 ^ 2 ≤
        ∑ k ∈ Finset.range (n + 1), x.getD k 0 ^ 2 := by
  obtain ⟨rfl, hs⟩ := create_ok ho
  have hb := balance (sections poles) hs (zseries x) n
  have h2 : 0 ≤ energy (n + 1) (advAll (sections poles) * zseries x) :=
    Finset.sum_nonneg fun _ _ => sq_nonneg _
  unfold tapEnergy at hb
  rw [list_sum_eq _ 0, gains_length] at hb
  have e : (ofSections (sections poles)).sections = sections poles := rfl
  rw [e]
  have h3 : ∀ i ∈ Finset.range (total (sections poles)),
      ((columns (sections poles) (List.replicate (total (sections poles)) 1) x).getD i []).getD n 0 ^ 2 =
        coeff n ((gains (sections poles)).getD i 0 * zseries x) ^ 2 := by
    intro i hi
    have hi' := Finset.mem_range.1 hi
    rw [((columns_spec _ _ x).2 i hi').2 n hn, getD_ones _ _ hi', mul_one]
  rw [Finset.sum_congr rfl h3]
  have h4 : energy (n + 1) (zseries x) = ∑ k ∈ Finset.range (n + 1), x.getD k 0 ^ 2 :=
    Finset.sum_congr rfl fun k _ => by rw [zseries_coeff]
  rw [← h4]
  linarith

/-! ### Fitting -/

/-- **The coefficients found** for a response are its inner products with the impulse responses of
the taps; poles and states stay as they are. -/
theorem C110_fit (poles : List ℂ) (o : Obj) (ho : create poles = .ok o) (h : List Call) (ir : List ℝ)
    (hir : ir ≠ []) :
    (fitCoefficients (after o h) ir).1 = .ok () ∧
    ∃ c, (fitCoefficients (after o h) ir).2 = { after o h with coeffs := c } ∧
      c.length = total o.sections ∧
      ∀ i < total o.sections,
        c.getD i 0 = ∑ n ∈ Finset.range ir.length, ir.getD n 0 * tap o.sections i n := by
  obtain ⟨rfl, hs⟩ := create_ok ho
  obtain ⟨c, hc, hl⟩ := after_eq (sections poles) (List.replicate (total (sections poles)) 1) (by simp) h
  have e : (ofSections (sections poles)).sections = sections poles := rfl
  rw [e]
  have hp := List.length_pos_of_ne_nil hir
  unfold ofSections
  rw [hc]
  set ss := sections poles with hss
  have hcl : ((columns ss (List.replicate (total ss) 1) ir.reverse).map
      fun l => l.getD (ir.length - 1) 0).length = total ss := by
    rw [List.length_map, (columns_spec _ _ _).1]
  have hf : fitCoefficients ⟨ss, c, (bank ss).after (ops h)⟩ ir = (.ok (),
      ⟨ss, (columns ss (List.replicate (total ss) 1) ir.reverse).map
        fun l => l.getD (ir.length - 1) 0, (bank ss).after (ops h)⟩) := by
    unfold fitCoefficients setCoefficients
    simp only [List.length_replicate, ne_eq, not_true_eq_false, if_false, hcl]
    rw [if_neg (by omega)]
  rw [hf]
  refine ⟨rfl, _, rfl, hcl, fun i hi => ?_⟩
  obtain ⟨h1, h2⟩ := columns_spec ss (List.replicate (total ss) 1) ir.reverse
  have e1 : ((columns ss (List.replicate (total ss) 1) ir.reverse).map
      fun l => l.getD (ir.length - 1) 0).getD i 0 =
      ((columns ss (List.replicate (total ss) 1) ir.reverse).getD i []).getD (ir.length - 1) 0 := by
    rw [List.getD_eq_getElem _ _ (by rw [hcl]; exact hi), List.getElem_map,
      List.getD_eq_getElem (columns ss (List.replicate (total ss) 1) ir.reverse) _
        (by rw [h1]; exact hi)]
  rw [e1, (h2 i hi).2 _ (by simp; omega), getD_ones _ _ hi, mul_one, PowerSeries.coeff_mul,
    Finset.Nat.sum_antidiagonal_eq_sum_range_succ
      (fun i' j => coeff i' ((gains ss).getD i 0) * coeff j (zseries ir.reverse)),
    show (ir.length - 1).succ = ir.length by omega]
  refine Finset.sum_congr rfl fun n hn => ?_
  have hn' := Finset.mem_range.1 hn
  rw [tap_eq _ _ _ hi, zseries_coeff, mul_comm]
  congr 1
  rw [List.getD_eq_getElem _ _ (by simp; omega), List.getD_eq_getElem _ _ hn', List.getElem_reverse]
  congr 1
  omega

theorem getIr_getD (o : Obj) (N n : ℕ) (hn : n < N) :
    (getIr o N).getD n 0 =
      ∑ i ∈ Finset.range (total o.sections), o.coeffs.getD i 0 * tap o.sections i n := by
  unfold getIr
  rw [filterVector_getD _ _ _ _ (by simpa using hn)]
  refine Finset.sum_congr rfl fun i hi => ?_
  have := impulse_series N (by omega)
  unfold impulse at this
  rw [this, mul_one, tap_eq _ _ _ (Finset.mem_range.1 hi)]

/-- **Least squares.**  Let `c` be the fitted coefficients.  For every other choice `d` of the
coefficients the squared error between the given response and the response of the filter converges
(with growing length) to `‖ir‖² - ∑ c² + ∑ (c - d)²`, so that the fitted coefficients are the unique
optimum for these poles. -/
theorem C110_least_squares (poles : List ℂ) (o : Obj) (ho : create poles = .ok o) (ir : List ℝ)
    (hir : ir ≠ []) (c : List ℝ) (hc : c = (fitCoefficients o ir).2.coeffs) (d : List ℝ) :
    Tendsto (fun N => ∑ n ∈ Finset.range N, (ir.getD n 0 - (getIr { o with coeffs := d } N).getD n 0) ^ 2)
      atTop (𝓝 ((∑ n ∈ Finset.range ir.length, ir.getD n 0 ^ 2)
        - (∑ i ∈ Finset.range (total o.sections), c.getD i 0 ^ 2)
        + ∑ i ∈ Finset.range (total o.sections), (c.getD i 0 - d.getD i 0) ^ 2)) := by
  obtain ⟨-, c', h2, -, h4⟩ := C110_fit poles o ho [] ir hir
  have hcc : c = c' := by
    rw [hc]
    have : (fitCoefficients o ir).2 = { o with coeffs := c' } := h2
    rw [this]
  rw [← hcc] at h4
  have horth := C110_orthonormal poles o ho
  set T := total o.sections with hT
  have hexp : ∀ N, ir.length ≤ N →
      (∑ n ∈ Finset.range ir.length, ir.getD n 0 ^ 2) - 2 * (∑ i ∈ Finset.range T, d.getD i 0 * c.getD i 0) +
        ∑ i ∈ Finset.range T, ∑ j ∈ Finset.range T, d.getD i 0 * d.getD j 0 *
          (∑ n ∈ Finset.range N, tap o.sections i n * tap o.sections j n) =
      ∑ n ∈ Finset.range N, (ir.getD n 0 - (getIr { o with coeffs := d } N).getD n 0) ^ 2 := by
    intro N hN
    have e1 : ∀ f : ℕ → ℝ, ∑ n ∈ Finset.range ir.length, ir.getD n 0 * f n =
        ∑ n ∈ Finset.range N, ir.getD n 0 * f n := by
      intro f
      refine Finset.sum_subset (Finset.range_mono hN) fun n _ hn => ?_
      rw [List.getD_eq_default ir _ (by simpa using hn), zero_mul]
    have e2 : ∑ n ∈ Finset.range ir.length, ir.getD n 0 ^ 2 = ∑ n ∈ Finset.range N, ir.getD n 0 ^ 2 := by
      have := e1 fun n => ir.getD n 0
      simpa only [← pow_two] using this
    have e3 : ∑ i ∈ Finset.range T, d.getD i 0 * c.getD i 0 =
        ∑ n ∈ Finset.range N, ir.getD n 0 * ∑ i ∈ Finset.range T, d.getD i 0 * tap o.sections i n := by
      have : ∀ i ∈ Finset.range T, d.getD i 0 * c.getD i 0 =
          ∑ n ∈ Finset.range N, ir.getD n 0 * (d.getD i 0 * tap o.sections i n) := by
        intro i hi
        rw [h4 i (Finset.mem_range.1 hi), e1, Finset.mul_sum]
        exact Finset.sum_congr rfl fun n _ => by ring
      rw [Finset.sum_congr rfl this, Finset.sum_comm]
      exact Finset.sum_congr rfl fun n _ => (Finset.mul_sum _ _ _).symm
    have e4 : ∑ i ∈ Finset.range T, ∑ j ∈ Finset.range T, d.getD i 0 * d.getD j 0 *
          (∑ n ∈ Finset.range N, tap o.sections i n * tap o.sections j n) =
        ∑ n ∈ Finset.range N, (∑ i ∈ Finset.range T, d.getD i 0 * tap o.sections i n) ^ 2 := by
      have : ∀ n ∈ Finset.range N, (∑ i ∈ Finset.range T, d.getD i 0 * tap o.sections i n) ^ 2 =
          ∑ i ∈ Finset.range T, ∑ j ∈ Finset.range T,
            d.getD i 0 * d.getD j 0 * (tap o.sections i n * tap o.sections j n) := by
        intro n _
        rw [pow_two, Finset.sum_mul_sum]
        exact Finset.sum_congr rfl fun i _ => Finset.sum_congr rfl fun j _ => by ring
      symm
      rw [Finset.sum_congr rfl this, Finset.sum_comm]
      refine Finset.sum_congr rfl fun i _ => ?_
      rw [Finset.sum_comm]
      refine Finset.sum_congr rfl fun j _ => ?_
      rw [Finset.mul_sum]
    rw [e2, e3, e4, Finset.mul_sum, ← Finset.sum_sub_distrib, ← Finset.sum_add_distrib]
    refine Finset.sum_congr rfl fun n hn => ?_
    rw [getIr_getD _ _ _ (Finset.mem_range.1 hn)]
    ring
  have hlim : Tendsto (fun N => (∑ n ∈ Finset.range ir.length, ir.getD n 0 ^ 2) -
      2 * (∑ i ∈ Finset.range T, d.getD i 0 * c.getD i 0) +
        ∑ i ∈ Finset.range T, ∑ j ∈ Finset.range T, d.getD i 0 * d.getD j 0 *
          (∑ n ∈ Finset.range N, tap o.sections i n * tap o.sections j n)) atTop
      (𝓝 ((∑ n ∈ Finset.range ir.length, ir.getD n 0 ^ 2) -
        2 * (∑ i ∈ Finset.range T, d.getD i 0 * c.getD i 0) +
        ∑ i ∈ Finset.range T, ∑ j ∈ Finset.range T, d.getD i 0 * d.getD j 0 * (if i = j then 1 else 0))) := by
    refine tendsto_const_nhds.add (tendsto_finsetSum _ fun i hi => tendsto_finsetSum _ fun j hj => ?_)
    exact (horth i j (Finset.mem_range.1 hi) (Finset.mem_range.1 hj)).const_mul _
  have hval : (∑ n ∈ Finset.range ir.length, ir.getD n 0 ^ 2) -
        2 * (∑ i ∈ Finset.range T, d.getD i 0 * c.getD i 0) +
        ∑ i ∈ Finset.range T, ∑ j ∈ Finset.range T, d.getD i 0 * d.getD j 0 * (if i = j then 1 else 0) =
      (∑ n ∈ Finset.range ir.length, ir.getD n 0 ^ 2)
        - (∑ i ∈ Finset.range T, c.getD i 0 ^ 2) + ∑ i ∈ Finset.range T, (c.getD i 0 - d.getD i 0) ^ 2 := by
    have h5 : ∀ i ∈ Finset.range T, ∑ j ∈ Finset.range T, d.getD i 0 * d.getD j 0 *
        (if i = j then (1 : ℝ) else 0) = d.getD i 0 ^ 2 := by
      intro i hi
      rw [Finset.sum_eq_single i]
      · rw [if_pos rfl]; ring
      · intro j _ hne
        rw [if_neg (fun h => hne h.symm), mul_zero]
      · intro h; exact absurd hi h
    rw [Finset.sum_congr rfl h5, Finset.mul_sum, sub_add, sub_add, ← Finset.sum_sub_distrib,
      ← Finset.sum_sub_distrib]
    congr 1
    exact Finset.sum_congr rfl fun i _ => by ring
  rw [hval] at hlim
  refine hlim.congr' ?_
  filter_upwards [eventually_ge_atTop ir.length] with N hN
  exact hexp N hN

/-- **Round trip in the limit.**  The coefficients fitted to the first `N` samples of the filter's own
impulse response converge to the coefficients of the filter. -/
theorem C110_round_trip_limit_partial (poles : List ℂ) (o : Obj) (ho : create poles = .ok o)
    (d : List ℝ) (i : ℕ) (hi : i < total o.sections) :
    Tendsto (fun N => ((fitCoefficients o (getIr { o with coeffs := d } N)).2.coeffs).getD i 0) atTop
      (𝓝 (d.getD i 0)) := by
  have horth := C110_orthonormal poles o ho
  set T := total o.sections with hT
  have hlim : Tendsto (fun N => ∑ j ∈ Finset.range T, d.getD j 0 *
      (∑ n ∈ Finset.range N, tap o.sections i n * tap o.sections j n)) atTop
      (𝓝 (∑ j ∈ Finset.range T, d.getD j 0 * (if i = j then 1 else 0))) :=
    tendsto_finsetSum _ fun j hj => (horth i j hi (Finset.mem_range.1 hj)).const_mul _
  have hval : ∑ j ∈ Finset.range T, d.getD j 0 * (if i = j then (1 : ℝ) else 0) = d.getD i 0 := by
    rw [Finset.sum_eq_single i]
    · rw [if_pos rfl, mul_one]
    · intro j _ hne
      rw [if_neg (fun h => hne h.symm), mul_zero]
    · intro h; exact absurd (Finset.mem_range.2 hi) h
  rw [hval] at hlim
  refine hlim.congr' ?_
  filter_upwards [eventually_ge_atTop 1] with N hN
  have hlen : (getIr { o with coeffs := d } N).length = N := by simp [getIr, filterVector]
  have hne : getIr { o with coeffs := d } N ≠ [] := by
    intro h
    rw [h] at hlen
    simp at hlen
    omega
  obtain ⟨-, c', h2, -, h4⟩ := C110_fit poles o ho [] _ hne
  have h2' : (fitCoefficients o (getIr { o with coeffs := d } N)).2 = { o with coeffs := c' } := h2
  rw [h2']
  dsimp only
  rw [h4 i hi, hlen]
  have : ∀ n ∈ Finset.range N, (getIr { o with coeffs := d } N).getD n 0 * tap o.sections i n =
      ∑ j ∈ Finset.range T, d.getD j 0 * (tap o.sections i n * tap o.sections j n) := by
    intro n hn
    rw [getIr_getD _ _ _ (Finset.mem_range.1 hn), Finset.sum_mul]
    exact Finset.sum_congr rfl fun j _ => by ring
  rw [Finset.sum_congr rfl this, Finset.sum_comm]
  exact Finset.sum_congr rfl fun j _ => (Finset.mul_sum _ _ _)

/-- For finite responses the round trip is not exact. -/
theorem C110_round_trip_not_exact : ∃ (o : Obj), create [(1 / 2 : ℂ)] = .ok o ∧
    o.coeffs = [1] ∧ (fitCoefficients o (getIr o 1)).2.coeffs.getD 0 0 = 3 / 4 := by
  have hc : ∃ o, create [(1 / 2 : ℂ)] = .ok o := by
    unfold create
    rw [if_neg, if_neg]
    · exact ⟨_, rfl⟩
    · simp
      norm_num
    · simp
  obtain ⟨o, ho⟩ := hc
  have hs : sections [(1 / 2 : ℂ)] = [.real (1 / 2)] := by
    simp [sections]
  have hss : o.sections = [.real (1 / 2)] := by rw [(create_ok ho).1, ← hs]; rfl
  have hcs : o.coeffs = [1] := by
    rw [(create_ok ho).1]
    unfold ofSections
    rw [hs]
    simp [total, Section.taps]
  refine ⟨o, ho, hcs, ?_⟩
  have hlen : (getIr o 1).length = 1 := by simp [getIr, filterVector]
  have hne : getIr o 1 ≠ [] := by
    intro h
    rw [h] at hlen
    simp at hlen
  obtain ⟨-, c', h2, -, h4⟩ := C110_fit _ o ho [] _ hne
  have h2' : (fitCoefficients o (getIr o 1)).2 = { o with coeffs := c' } := h2
  have hT : total o.sections = 1 := by rw [hss]; rfl
  rw [h2']
  dsimp only
  rw [h4 0 (by rw [hT]; omega), hlen, Finset.sum_range_one, getIr_getD _ _ _ (by omega), hT,
    Finset.sum_range_one, hcs, hss, tap_eq _ _ _ (by decide)]
  have hg : coeff 0 ((gains [Section.real (1 / 2)]).getD 0 0) = √(1 - (1 / 2) ^ 2) := by
    have : (gains [Section.real (1 / 2)]).getD 0 0 = ratio [√(1 - (1 / 2 : ℝ) ^ 2)] [1, -(1 / 2)] := rfl
    rw [this]
    unfold ratio
    rw [zseries_single, coeff_C_mul, (inv_coeffs_one (1 / 2)).1, mul_one]
  rw [hg]
  simp only [List.getD_cons_zero, one_mul]
  rw [Real.mul_self_sqrt (by norm_num)]
  norm_num

/-- A real and a complex pole are accepted and give three taps. -/
example : ∃ o, create [(1 / 2 : ℂ), 1 / 2 * Complex.I] = .ok o ∧ total o.sections = 3 ∧
    (0 : ℕ) < nChannels (ops [.op (.sample 1 0), .coefficients [1, 2, 3], .fit [1, 2]]) := by
  have hc : ∃ o, create [(1 / 2 : ℂ), 1 / 2 * Complex.I] = .ok o := by
    unfold create
    rw [if_neg, if_neg]
    · exact ⟨_, rfl⟩
    · simp
      norm_num
    · simp
  obtain ⟨o, ho⟩ := hc
  refine ⟨o, ho, ?_, by simp [ops, nChannels]⟩
  rw [(create_ok ho).1]
  simp [ofSections, sections, total, Section.taps]

end Verif.Props.C110
