import Verif.Lemmas.Parallel
import Verif.Props.C36Stable

/-!
# C111: parallel filters
-/

namespace Verif.Props.C111

open Parallel PowerSeries StableFilter
open Bank hiding filterSignal

/-! ### Creation and calls before the fit -/

/-- Accepted are exactly the poles inside the unit circle, not at the origin, not below the real axis
and without neighbours closer than the tolerance; the numbers have to be non-negative. -/
theorem C111_refused (poles : List ℂ) (n : ℤ) (fs : ℝ) :
    (create poles n fs = .error .assertionError ↔
      n < 0 ∨ fs ≤ 0 ∨ ∃ p ∈ poles, 1 ≤ ‖p‖ ∨ p.im < 0 ∨ p = 0 ∨
        open Classical in (poles.filter fun x => isClose x p).length ≠ 1) ∧
    (∀ o, create poles n fs = .ok o → o.nFir = n.toNat ∧ o.delay = 0 ∧ o.offset = 1 ∧ o.sos = none ∧
      o.firCoeffs = none ∧ o.iir = none ∧ o.fir = none ∧ o.iirDelay = none) ∧
    ∀ (o : Obj) (ms : ℝ), setParameters o none ms = .error .typeError ∧
      ∀ d < 0, setParameters o (some d) ms = .error .assertionError := by
  classical
  refine ⟨?_, ?_, fun o ms => ⟨rfl, fun d hd => by simp [setParameters, hd]⟩⟩
  · unfold create
    split_ifs with h1 h2 h3 h4 h5 h6
    · exact ⟨fun _ => Or.inl h1, fun _ => rfl⟩
    · obtain ⟨p, hp, h⟩ := h2
      exact ⟨fun _ => Or.inr (Or.inr ⟨p, hp, Or.inl h⟩), fun _ => rfl⟩
    · obtain ⟨p, hp, h⟩ := h3
      exact ⟨fun _ => Or.inr (Or.inr ⟨p, hp, Or.inr (Or.inl h)⟩), fun _ => rfl⟩
    · obtain ⟨p, hp, h⟩ := h4
      exact ⟨fun _ => Or.inr (Or.inr ⟨p, hp, Or.inr (Or.inr (Or.inl (norm_eq_zero.1 h)))⟩), fun _ => rfl⟩
    · obtain ⟨p, hp, h⟩ := h5
      exact ⟨fun _ => Or.inr (Or.inr ⟨p, hp, Or.inr (Or.inr (Or.inr (by convert h)))⟩), fun _ => rfl⟩
    · exact ⟨fun _ => Or.inr (Or.inl h6), fun _ => rfl⟩
    · constructor
      · intro h
        simp [setParameters] at h
      · rintro (h | h | ⟨p, hp, h | h | h | h⟩)
        · exact absurd h h1
        · exact absurd h h6
        · exact absurd ⟨p, hp, h⟩ h2
        · exact absurd ⟨p, hp, h⟩ h3
        · exact absurd ⟨p, hp, by rw [h, norm_zero]⟩ h4
        · exact absurd ⟨p, hp, by convert h⟩ h5
  · intro o ho
    unfold create at ho
    split_ifs at ho
    simp only [setParameters] at ho
    rw [if_neg (by decide)] at ho
    cases ho
    refine ⟨rfl, rfl, ?_, rfl, rfl, rfl, rfl, rfl⟩
    have : ⌊(1 / 2 : ℝ)⌋₊ = 0 := Nat.floor_eq_zero.2 (by norm_num)
    simp only [mul_zero, zero_div, zero_add, this]
    rfl

/-- **Nothing works before the fit**: setting coefficients (as the documentation proposes), filtering
and all calls of the realtime interface raise AttributeError on a new object. -/
theorem C111_before_fit (poles : List ℂ) (n : ℤ) (fs : ℝ) (o : Obj) (ho : create poles n fs = .ok o)
    (c : List (ℝ × ℝ)) (f : Option (List ℝ)) (x : List ℝ) (v : ℝ) (ch m : ℕ) :
    setCoefficients o c f = .error .attributeError ∧ filterSignal o x = .error .attributeError ∧
    (process o v ch).1 = .error .attributeError ∧ (setChannels o m).1 = .error .attributeError ∧
    (reset o).1 = .error .attributeError := by
  obtain ⟨h1, h2, h3, h4, h5, h6, h7, h8⟩ := (C111_refused poles n fs).2.1 o ho
  refine ⟨by simp [setCoefficients, h4], ?_, ?_, by simp [setChannels, h6], by simp [reset, h6]⟩
  · unfold filterSignal
    by_cases h0 : 0 < o.nFir
    · simp [h0, h5]
    · simp [h0, h4]
  · unfold process tail
    by_cases h0 : 1 < o.nFir
    · simp [h0, h7]
    · by_cases h01 : o.nFir = 1
      · simp [h01, h5]
      · simp [h0, h01, h2, h6]

/-! ### The object after the fit -/

theorem strided_length (len step : ℕ) (v ff : List ℝ) (h : strided len step v = .ok ff) :
    ff.length = len := by
  unfold strided at h
  dsimp only at h
  by_cases hc : v.length = (len + step - 1) / step ∨ v.length = 1
  · rw [if_pos hc] at h
    obtain rfl := Except.ok.inj h
    simp
  · rw [if_neg hc] at h
    simp at h

theorem constant_series (l : List ℝ) : constantCoeff (zseries l) = l.getD 0 0 := by
  rw [← coeff_zero_eq_constantCoeff_apply, zseries_coeff]

theorem spread_length (offset n : ℕ) (c b : List ℝ) (hc : c.length = n) (h : spread offset n c = .ok b) :
    FirOk n b := by
  unfold spread at h
  split_ifs at h with h1
  · rcases hst : strided (offset * (c.length - 1) + 1) (offset + 1) c.dropLast with e | ff
    · rw [hst] at h
      simp at h
    rw [hst] at h
    obtain rfl := Except.ok.inj h
    have hl := strided_length _ _ _ _ hst
    have : 1 ≤ offset * (c.length - 1) := Nat.mul_pos (by omega) (by omega)
    exact ⟨fun h0 => by omega, fun h0 => by omega, fun _ => by rw [List.length_set, hl]; omega⟩
  · obtain rfl := Except.ok.inj h
    exact ⟨fun h0 => by rw [h0] at hc; exact List.eq_nil_of_length_eq_zero hc, fun h0 => by omega,
      fun _ => by omega⟩

theorem sos2tf_fitted (dens : List (ℝ × ℝ)) (sol : List ℝ)
    (hb : ∀ i < dens.length, sol.getD (3 * i) 0 ≠ 0) :
    (fittedSos dens sol).map sos2tf = fittedSos dens sol := by
  unfold fittedSos
  rw [List.map_map]
  refine List.map_congr_left fun i hi => ?_
  have := hb i (by simpa using hi)
  rw [List.getD_eq_getElem?_getD] at this
  simp [sos2tf, this]

theorem good_fitted (dens : List (ℝ × ℝ)) (sol : List ℝ) : Good (fittedSos dens sol) := by
  intro c hc
  unfold fittedSos at hc
  obtain ⟨i, -, rfl⟩ := List.mem_map.1 hc
  simp [IIRFilter.order]

theorem fit_inv (o : Obj) (dens : List (ℝ × ℝ)) (sol : List ℝ)
    (hlen : sol.length = 3 * dens.length + o.nFir)
    (hb : ∀ i < dens.length, sol.getD (3 * i) 0 ≠ 0) (hfit : (fit o dens sol).1 = .ok ()) :
    ∃ b, spread o.offset o.nFir (sol.drop (3 * dens.length)) = .ok b ∧ FirOk o.nFir b ∧
      (fit o dens sol).2.nFir = o.nFir ∧ (fit o dens sol).2.delay = o.delay ∧
      (fit o dens sol).2.sos = some (fittedSos dens sol) ∧
      (fit o dens sol).2.firCoeffs = some b ∧
      Inv (fit o dens sol).2 (fittedSos dens sol) b [] (fit o dens sol).2 := by
  unfold fit at hfit ⊢
  dsimp only at hfit ⊢
  rcases hs : spread o.offset o.nFir (sol.drop (3 * dens.length)) with e | b
  · rw [hs] at hfit
    simp at hfit
  · dsimp only
    have hF := spread_length _ _ _ _ (by rw [List.length_drop]; omega) hs
    refine ⟨b, rfl, hF, rfl, rfl, rfl, rfl, ⟨rfl, rfl, rfl, rfl, ?_, ?_, ?_, ?_⟩⟩
    · have hbeh : behind o.delay [] = [] := by
        unfold behind
        split_ifs <;> rfl
      show some _ = some _
      congr 1
      have e : iirAfter (fittedSos dens sol) (behind o.delay []) =
          ((fittedSos dens sol).map sos2tf).map fun s => (s, (IIRFilter.filter (K := ℝ) [] []).init) := by
        rw [sos2tf_fitted _ _ hb, hbeh]
        rfl
      simp only [computeFilters]
      rw [e, List.map_map]
      rfl
    · intro h1
      have : 0 < b.length := by have := hF.2.2 h1; omega
      simp only [computeFilters, this, if_true]
      rfl
    · intro h1
      have : 0 < b.length := by
        by_cases h2 : o.nFir = 1
        · have := hF.2.1 h2; omega
        · have h3 : 1 < o.nFir := by
            simp only [computeFilters] at h1
            omega
          have := hF.2.2 h3; omega
      simp only [computeFilters, this, if_true]
      exact Option.some_ne_none _
    · intro h1
      have h1' : 0 < o.delay := h1
      simp only [computeFilters, h1', if_true]
      rfl

theorem delayed_agree (d : ℕ) (x : List ℝ) :
    AgreeUpTo x.length (zseries ((List.replicate d 0 ++ x).take x.length)) (X ^ d * zseries x) := by
  intro n hn
  rw [zseries_coeff, LFilter.getD_take _ _ _ hn, coeff_X_pow_mul']
  by_cases h : d ≤ n
  · rw [if_pos h, List.getD_append_right _ _ _ _ (by simpa using h), zseries_coeff]
    simp
  · rw [if_neg h, List.getD_append _ _ _ _ (by simp; omega), List.getD_eq_getElem _ _ (by simp; omega)]
    simp

theorem filterSignal_spec (s : Obj) (l : List (List ℝ × List ℝ)) (b : List ℝ) (hl : Good l)
    (hs : s.sos = some l) (hb : s.firCoeffs = some b) (h0 : s.nFir = 0 → b = []) (x : List ℝ) :
    filterSignal s x =
      .ok ((List.range x.length).map fun (n : ℕ) => coeff n (tf l b s.delay * zseries x)) := by
  have hsum : ∀ l : List (List ℝ × List ℝ), Good l → ∀ n < x.length,
      (l.map fun c => (lfilter c.1 c.2 ((List.replicate s.delay 0 ++ x).take x.length)).getD n 0).sum =
        coeff n ((l.map fun c => ratio c.1 c.2 * X ^ s.delay).sum * zseries x) := by
    intro l hl n hn
    induction l with
    | nil => simp
    | cons c l ih =>
      have hlen : ((List.replicate s.delay 0 ++ x).take x.length).length = x.length := by
        simp
      have h1 := lfilter_agree c.1 c.2 ((List.replicate s.delay 0 ++ x).take x.length)
        (hl c (List.mem_cons_self ..)).1 n (by rw [hlen]; exact hn)
      rw [zseries_coeff] at h1
      have h2 := (delayed_agree s.delay x).mul_left (ratio c.1 c.2) n hn
      rw [List.map_cons, List.sum_cons, ih fun c' hc' => hl c' (List.mem_cons_of_mem _ hc'), h1, h2,
        List.map_cons, List.sum_cons, add_mul, map_add, mul_assoc]
  unfold filterSignal tf
  simp only [hs, hb]
  by_cases h : 0 < s.nFir
  · simp only [h, if_true]
    congr 1
    refine List.map_congr_left fun n hn => ?_
    have hn' : n < x.length := by simpa using hn
    rw [hsum l hl n hn', add_mul, map_add, ← zseries_coeff]
    congr 1
    exact fir_agree b x n hn'
  · simp only [h, if_false]
    congr 1
    refine List.map_congr_left fun n hn => ?_
    have hn' : n < x.length := by simpa using hn
    have hz : zseries ([] : List ℝ) = 0 := by ext n; rw [zseries_coeff]; simp
    rw [hsum l hl n hn', h0 (by omega), hz, zero_add, List.getD_eq_getElem _ _ (by simpa using hn')]
    simp

theorem fitted_ne (dens : List (ℝ × ℝ)) (sol : List ℝ) (hd : dens ≠ []) : fittedSos dens sol ≠ [] := by
  have := List.length_pos_of_ne_nil hd
  intro h
  have h2 := congrArg List.length h
  simp [fittedSos] at h2
  exact hd h2

/-- **Streaming equals block filtering after a fit**, for every fit and every history of samples on
all channels, resets and changes of the number of channels: `process_sample` on an existing channel
returns the last sample of `filter_signal` applied to all samples of the channel since the last
reset, a channel that does not exist raises IndexError, and `filter_signal` does not depend on the
history.  (Sections whose leading coefficient is exactly zero are excluded: `sos2tf` drops it.) -/
theorem C111_streaming (o : Obj) (dens : List (ℝ × ℝ)) (sol : List ℝ) (hd : dens ≠ [])
    (hlen : sol.length = 3 * dens.length + o.nFir)
    (hb : ∀ i < dens.length, sol.getD (3 * i) 0 ≠ 0) (hfit : (fit o dens sol).1 = .ok ())
    (h : List (Op ℝ)) (x : ℝ) (ch : ℕ) :
    (ch < nChannels h → ∃ y,
      filterSignal (fit o dens sol).2 ((pastInputs ch h).reverse ++ [x]) = .ok y ∧
      y.length = (pastInputs ch h).length + 1 ∧
      (realtime (fit o dens sol).2).answer h x ch = .ok (y.getD (pastInputs ch h).length 0)) ∧
    (nChannels h ≤ ch → (realtime (fit o dens sol).2).answer h x ch = .error .indexError) ∧
    ∀ z, filterSignal ((realtime (fit o dens sol).2).after h) z = filterSignal (fit o dens sol).2 z := by
  obtain ⟨b, -, hF, hn, hdel, hsos, hcoef, hinv⟩ := fit_inv o dens sol hlen hb hfit
  have hg := good_fitted dens sol
  have hne := fitted_ne dens sol hd
  have hF' : FirOk (fit o dens sol).2.nFir b := by rw [hn]; exact hF
  have hi := Parallel.inv_after hg hne hF' hinv h
  have h0 : (fit o dens sol).2.nFir = 0 → b = [] := hF'.1
  refine ⟨fun hch => ?_, fun hch => ?_, fun z => ?_⟩
  · rw [filterSignal_spec _ _ b hg hsos hcoef h0]
    refine ⟨_, rfl, by simp, ?_⟩
    have h1 := (step_good hg hF' hi x ch hch).1
    rw [LFilter.getD_map_range, if_pos (by simp)]
    refine h1.trans ?_
    congr 1
    unfold lastOut
    simp
  · exact congrArg Prod.fst (step_bad hg hne hF' hi x ch hch)
  · rw [filterSignal_spec _ _ b hg hsos hcoef h0,
      filterSignal_spec _ _ b hg (hi.sos.trans hsos) hi.coeffs (fun h1 => h0 (by rw [← hi.nFir]; exact h1)),
      hi.delay]

/-! ### Response -/

theorem fitted_cons (d : ℝ × ℝ) (dens : List (ℝ × ℝ)) (s0 s1 s2 : ℝ) (sol : List ℝ) :
    fittedSos (d :: dens) (s0 :: s1 :: s2 :: sol) =
      ([s0, s1, s2], [1, d.1, d.2]) :: fittedSos dens sol := by
  unfold fittedSos
  rw [List.length_cons, List.range_succ_eq_map, List.map_cons, List.map_map]
  congr 1

theorem spread_series (offset : ℕ) (c b : List ℝ) (ho : 1 ≤ offset)
    (h2 : offset = 1 ∨ c.length ≤ 2) (hs : spread offset c.length c = .ok b) :
    ∀ w : ℂ, evalPoly (b.map Complex.ofReal) w =
      ∑ k ∈ Finset.range c.length, w ^ (k * offset) * (c.getD k 0 : ℂ) := by
  intro w
  have hev : ∀ l : List ℝ, evalPoly (l.map Complex.ofReal) w =
      ∑ k ∈ Finset.range l.length, (l.getD k 0 : ℂ) * w ^ k := by
    intro l
    unfold evalPoly
    rw [List.length_map]
    refine Finset.sum_congr rfl fun k hk => ?_
    have hk' := Finset.mem_range.1 hk
    rw [List.getD_eq_getElem _ _ (by simpa using hk'), List.getD_eq_getElem _ _ hk', List.getElem_map]
  unfold spread at hs
  split_ifs at hs with h1
  · have hc2 : c.length = 2 := by omega
    obtain ⟨c0, c1, rfl⟩ := List.length_eq_two.1 hc2
    unfold strided at hs
    simp only [List.length_cons, List.length_nil, List.dropLast_cons_cons, List.dropLast_singleton] at hs
    norm_num at hs
    rw [← hs, hev]
    rw [List.length_set, List.length_map, List.length_range, Finset.sum_range_succ]
    have e1 : ∀ k ∈ Finset.range offset,
        (((((List.range (offset + 1)).map fun (k : ℕ) => if k % (offset + 1) = 0 then c0 else 0).set
          offset c1).getD k 0 : ℝ) : ℂ) * w ^ k = if k = 0 then (c0 : ℂ) else 0 := by
      intro k hk
      have hk' := Finset.mem_range.1 hk
      rw [List.getD_eq_getElem _ _ (by simp; omega), List.getElem_set_ne (by omega)]
      simp only [List.getElem_map, List.getElem_range]
      rw [Nat.mod_eq_of_lt (by omega)]
      by_cases h0 : k = 0
      · simp [h0]
      · simp [h0]
    rw [Finset.sum_congr rfl e1]
    rw [List.getD_eq_getElem _ _ (by simp), List.getElem_set_self]
    rw [Finset.sum_ite_eq' (Finset.range offset) 0, if_pos (Finset.mem_range.2 (by omega))]
    simp [Finset.sum_range_succ]
    ring
  · obtain rfl := Except.ok.inj hs
    rw [hev]
    refine Finset.sum_congr rfl fun k hk => ?_
    have hk' := Finset.mem_range.1 hk
    by_cases ho1 : offset = 1
    · rw [ho1, mul_one, mul_comm]
    · have : k = 0 := by omega
      subst this
      simp

theorem row_sections (dens : List (ℝ × ℝ)) (sol : List ℝ) (delay : ℕ) (w : ℂ)
    (hlen : 3 * dens.length ≤ sol.length) (R : List ℂ) :
    (List.zipWith (fun r s => r * ((s : ℝ) : ℂ)) ((dens.flatMap fun d =>
      [1 / (1 + d.1 * w + d.2 * w ^ 2) * w ^ delay, w / (1 + d.1 * w + d.2 * w ^ 2) * w ^ delay,
        w ^ 2 / (1 + d.1 * w + d.2 * w ^ 2) * w ^ delay]) ++ R) sol).sum =
    ((fittedSos dens sol).map fun c => evalPoly (c.1.map Complex.ofReal) w /
      evalPoly (c.2.map Complex.ofReal) w * w ^ delay).sum +
      (List.zipWith (fun r s => r * ((s : ℝ) : ℂ)) R (sol.drop (3 * dens.length))).sum := by
  induction dens generalizing sol with
  | nil => simp [fittedSos]
  | cons d dens ih =>
    rw [List.length_cons] at hlen
    match sol, hlen with
    | [], h => simp at h
    | [_], h => simp at h; omega
    | [_, _], h => simp at h; omega
    | s0 :: s1 :: s2 :: sol, h =>
      have ih := ih sol (by simp at h; omega)
      rw [fitted_cons, List.map_cons, List.sum_cons, List.length_cons,
        show 3 * (dens.length + 1) = 3 * dens.length + 1 + 1 + 1 by ring, List.drop_succ_cons,
        List.drop_succ_cons, List.drop_succ_cons, add_assoc, ← ih, List.flatMap_cons]
      simp only [List.cons_append, List.nil_append, List.zipWith_cons_cons, List.sum_cons]
      simp only [evalPoly, List.map_cons, List.map_nil, List.length_cons, List.length_nil,
        Finset.sum_range_succ, Finset.range_zero, Finset.sum_empty]
      simp
      ring

theorem zipWith_sum (R : List ℂ) (c : List ℝ) (h : R.length = c.length) :
    (List.zipWith (fun r s => r * ((s : ℝ) : ℂ)) R c).sum =
      ∑ k ∈ Finset.range c.length, R.getD k 0 * (c.getD k 0 : ℂ) := by
  induction c generalizing R with
  | nil => simp
  | cons a c ih =>
    cases R with
    | nil => simp at h
    | cons r R =>
      rw [List.zipWith_cons_cons, List.sum_cons, ih R (by simpa using h), List.length_cons,
        Finset.sum_range_succ']
      simp
      ring

/-- **The response is the one that was fitted.**  If the coefficients of the FIR part are contiguous
or at most two, the impulse response of the fitted filter has at every frequency the value "row of
the model matrix times solution", so that the least squares solution is the best parallel filter. -/
theorem C111_response (o : Obj) (dens : List (ℝ × ℝ)) (sol : List ℝ)
    (hlen : sol.length = 3 * dens.length + o.nFir)
    (hb : ∀ i < dens.length, sol.getD (3 * i) 0 ≠ 0) (hoff : 1 ≤ o.offset)
    (h2 : o.offset = 1 ∨ o.nFir ≤ 2) (hst : ∀ d ∈ dens, StableDen [1, d.1, d.2]) :
    (fit o dens sol).1 = .ok () ∧
    ∃ g : ℕ → ℝ, (∀ N, getIr (fit o dens sol).2 N = .ok ((List.range N).map g)) ∧
      TransformIs g fun w =>
        (List.zipWith (fun r s => r * ((s : ℝ) : ℂ)) (matrixRow dens o.delay o.offset o.nFir w) sol).sum := by
  have hcl : (sol.drop (3 * dens.length)).length = o.nFir := by rw [List.length_drop]; omega
  have hok : ∃ b, spread o.offset o.nFir (sol.drop (3 * dens.length)) = .ok b := by
    unfold spread
    split_ifs with h1
    · unfold strided
      simp only
      rw [if_pos (Or.inr (by rw [List.length_dropLast]; omega))]
      exact ⟨_, rfl⟩
    · exact ⟨_, rfl⟩
  have hfit : (fit o dens sol).1 = .ok () := by
    obtain ⟨b, hs⟩ := hok
    unfold fit
    simp only [hs]
  refine ⟨hfit, ?_⟩
  obtain ⟨b, hs, hF, hn, hdel, hsos, hcoef, -⟩ := fit_inv o dens sol hlen hb hfit
  have hg := good_fitted dens sol
  refine ⟨fun n => coeff n (tf (fittedSos dens sol) b o.delay), fun N => ?_, ?_⟩
  · unfold getIr
    rw [filterSignal_spec _ _ b hg hsos hcoef (fun h => hF.1 (by rw [← hn]; exact h)), hdel]
    congr 1
    simp only [List.length_map, List.length_range]
    refine List.map_congr_left fun n hn' => ?_
    have : zseries ((List.range N).map fun (k : ℕ) => if k = 0 then (1 : ℝ) else 0) = 1 := by
      ext k
      rw [zseries_coeff, LFilter.getD_map_range, coeff_one]
      have : n < N := by simpa using hn'
      split_ifs <;> first | rfl | omega
    rw [this, mul_one]
  · have hst' : ∀ c ∈ fittedSos dens sol, StableDen c.2 ∧ c.2.getD 0 0 ≠ 0 := by
      intro c hc
      unfold fittedSos at hc
      obtain ⟨i, hi, rfl⟩ := List.mem_map.1 hc
      have hi' : i < dens.length := by simpa using hi
      refine ⟨?_, by simp⟩
      rw [List.getD_eq_getElem _ _ hi']
      exact hst _ (List.getElem_mem _)
    have hX : ∀ d : ℕ, AbsSum (cplx (X ^ d)) ∧ ∀ w : ℂ, valueAt (cplx (X ^ d)) w = w ^ d := by
      intro d
      have h := fir_value (delayTaps d)
      rw [delayTaps_series] at h
      refine ⟨h.1, fun w => ?_⟩
      rw [h.2 w]
      unfold evalPoly
      rw [List.length_map, delayTaps_length, Finset.sum_range_succ, Finset.sum_eq_zero, zero_add]
      · rw [List.getD_eq_getElem _ _ (by simp [delayTaps_length]), List.getElem_map]
        simp [delayTaps]
      · intro k hk
        have hk' := Finset.mem_range.1 hk
        rw [List.getD_eq_getElem _ _ (by simp [delayTaps_length]; omega), List.getElem_map]
        simp [delayTaps, hk']
    have hadd : ∀ G H : PowerSeries ℝ, AbsSum (cplx G) → AbsSum (cplx H) → AbsSum (cplx (G + H)) ∧
        ∀ w : ℂ, ‖w‖ ≤ 1 → valueAt (cplx (G + H)) w = valueAt (cplx G) w + valueAt (cplx H) w := by
      intro G H hG hH
      have e : ∀ n, coeff n (cplx (G + H)) = coeff n (cplx G) + coeff n (cplx H) := by
        intro n; simp [cplx]
      have hs : AbsSum (cplx (G + H)) := by
        unfold AbsSum at *
        refine Summable.of_nonneg_of_le (fun n => norm_nonneg _) (fun n => ?_) (hG.add hH)
        rw [e]
        exact norm_add_le _ _
      refine ⟨hs, fun w hw => ?_⟩
      refine (hs.hasSum w hw).unique ?_
      have := (hG.hasSum w hw).add (hH.hasSum w hw)
      convert this using 2 with n
      rw [e]
      ring
    have hsec : ∀ l : List (List ℝ × List ℝ), (∀ c ∈ l, StableDen c.2 ∧ c.2.getD 0 0 ≠ 0) →
        AbsSum (cplx (l.map fun c => ratio c.1 c.2 * X ^ o.delay).sum) ∧
        ∀ w : ℂ, ‖w‖ ≤ 1 → valueAt (cplx (l.map fun c => ratio c.1 c.2 * X ^ o.delay).sum) w =
          (l.map fun c => evalPoly (c.1.map Complex.ofReal) w /
            evalPoly (c.2.map Complex.ofReal) w * w ^ o.delay).sum := by
      intro l hl
      induction l with
      | nil =>
        have : cplx 0 = 0 := by simp [cplx]
        simp only [List.map_nil, List.sum_nil, this]
        exact ⟨by unfold AbsSum; simp [summable_zero], fun w _ => by simp [valueAt]⟩
      | cons c l ih =>
        obtain ⟨i1, i2⟩ := ih fun c' hc' => hl c' (List.mem_cons_of_mem _ hc')
        obtain ⟨c1, c2⟩ := hl c (List.mem_cons_self ..)
        obtain ⟨r1, r2⟩ := ratio_value c.1 c.2 c2 c1
        have hmul : cplx (ratio c.1 c.2 * X ^ o.delay) = cplx (ratio c.1 c.2) * cplx (X ^ o.delay) := by
          unfold cplx
          rw [map_mul]
        have m1 : AbsSum (cplx (ratio c.1 c.2 * X ^ o.delay)) := by
          rw [hmul]; exact r1.mul (hX _).1
        rw [List.map_cons, List.sum_cons]
        obtain ⟨a1, a2⟩ := hadd _ _ m1 i1
        refine ⟨a1, fun w hw => ?_⟩
        rw [a2 w hw, i2 w hw, hmul, valueAt_mul r1 (hX _).1 w hw, r2 w hw, (hX _).2, List.map_cons,
          List.sum_cons]
    obtain ⟨s1, s2⟩ := hsec _ hst'
    obtain ⟨f1, f2⟩ := fir_value b
    obtain ⟨a1, a2⟩ := hadd _ _ f1 s1
    have htf : tf (fittedSos dens sol) b o.delay = zseries b +
        ((fittedSos dens sol).map fun c => ratio c.1 c.2 * X ^ o.delay).sum := rfl
    rw [← htf] at a1 a2
    refine ⟨?_, fun w hw => ?_⟩
    · unfold AbsSum at a1
      refine a1.congr fun n => ?_
      rw [cplx_coeff, Complex.norm_real, Real.norm_eq_abs]
    · have := a1.hasSum w hw
      simp only [cplx_coeff] at this
      convert this using 1
      unfold matrixRow
      dsimp only
      rw [a2 w hw, f2, s2 w hw, row_sections _ _ _ _ (by omega), add_comm]
      congr 1
      rw [zipWith_sum _ _ (by simp [hcl])]
      rw [← hcl] at hs
      rw [spread_series o.offset _ b hoff (by rw [hcl]; exact h2) hs]
      refine Finset.sum_congr rfl fun k hk => ?_
      have hk' : k < o.nFir := by rw [← hcl]; exact Finset.mem_range.1 hk
      rw [List.getD_eq_getElem _ _ (by simpa using hk')]
      simp

/-! ### Disagreements -/

theorem stride_count (off n : ℕ) (hoff : 1 < off) (hn : 3 ≤ n) :
    n - 1 = (off * (n - 1) + 1 + (off + 1) - 1) / (off + 1) ↔ n ≤ off + 2 := by
  obtain ⟨m, rfl⟩ : ∃ m, n = m + 1 := ⟨n - 1, by omega⟩
  simp only [Nat.add_sub_cancel]
  constructor
  · intro h
    have := Nat.div_mul_le_self (off * m + 1 + (off + 1) - 1) (off + 1)
    rw [← h] at this
    have h3 : off * m + 1 + (off + 1) - 1 = off * m + 1 + off := by omega
    rw [h3] at this
    nlinarith
  · intro h
    symm
    rw [Nat.div_eq_iff (by omega)]
    have h3 : off * m + 1 + (off + 1) - 1 = off * m + 1 + off := by omega
    rw [h3]
    constructor
    · nlinarith
    · have : m * (off + 1) = off * m + m := by ring
      rw [this]
      omega

/-- **The spacing of the FIR coefficients is wrong** for three or more coefficients: they are placed
at multiples of `offset + 1` although they were fitted at multiples of `offset`; with `offset + 2`
coefficients the last but one is overwritten, with more of them the fit raises ValueError. -/
theorem C111_spacing (o : Obj) (dens : List (ℝ × ℝ)) (sol : List ℝ)
    (hlen : sol.length = 3 * dens.length + o.nFir) (hoff : 1 < o.offset) (hn : 3 ≤ o.nFir) :
    (o.offset + 2 < o.nFir → (fit o dens sol).1 = .error .valueError) ∧
    (o.nFir ≤ o.offset + 2 → (fit o dens sol).1 = .ok () ∧ ∃ b,
      (fit o dens sol).2.firCoeffs = some b ∧
      (∀ k < o.nFir - 1, k * (o.offset + 1) < o.offset * (o.nFir - 1) →
        b.getD (k * (o.offset + 1)) 0 = sol.getD (3 * dens.length + k) 0) ∧
      (∀ k < o.nFir - 1, 0 < k → b.getD (k * o.offset) 0 = 0) ∧
      b.getD (o.offset * (o.nFir - 1)) 0 = sol.getD (3 * dens.length + (o.nFir - 1)) 0) ∧
    (o.nFir = o.offset + 2 → (o.nFir - 2) * (o.offset + 1) = o.offset * (o.nFir - 1)) := by
  have hcl : (sol.drop (3 * dens.length)).length = o.nFir := by rw [List.length_drop]; omega
  have hcount := stride_count o.offset o.nFir hoff hn
  refine ⟨fun h => ?_, fun h => ?_, fun h => ?_⟩
  · unfold fit spread strided
    simp only [hcl, List.length_dropLast]
    rw [if_pos ⟨hoff, by omega⟩, if_neg]
    rintro (h1 | h1)
    · exact absurd (hcount.1 h1) (by omega)
    · omega
  · have hs : spread o.offset o.nFir (sol.drop (3 * dens.length)) = .ok
        (((List.range (o.offset * (o.nFir - 1) + 1)).map fun (k : ℕ) =>
          if k % (o.offset + 1) = 0 then
            (sol.drop (3 * dens.length)).dropLast.getD (k / (o.offset + 1)) 0 else 0).set
          (o.offset * (o.nFir - 1)) ((sol.drop (3 * dens.length)).getLastD 0)) := by
      unfold spread strided
      simp only [hcl, List.length_dropLast]
      rw [if_pos ⟨hoff, by omega⟩, if_pos (Or.inl (hcount.2 h))]
      have : ¬ (o.nFir - 1 = 1) := by omega
      simp [this]
    have hfit : fit o dens sol = (.ok (), (fit o dens sol).2) := by
      unfold fit
      simp only [hs]
    refine ⟨by rw [hfit], _, by unfold fit; simp only [hs]; rfl, ?_, ?_, ?_⟩
    · intro k hk hlt
      rw [List.getD_eq_getElem _ _ (by simp; omega), List.getElem_set_ne (by omega)]
      simp only [List.getElem_map, List.getElem_range]
      rw [Nat.mul_mod_left, if_pos rfl, Nat.mul_div_cancel _ (by omega)]
      rw [List.getD_eq_getElem _ _ (by simp; omega), List.getElem_dropLast, List.getElem_drop,
        List.getD_eq_getElem _ _ (by omega)]
    · intro k hk hk0
      have hlt : k * o.offset < o.offset * (o.nFir - 1) := by
        rw [mul_comm]
        exact Nat.mul_lt_mul_of_pos_left hk (by omega)
      rw [List.getD_eq_getElem _ _ (by simp; omega), List.getElem_set_ne (by omega)]
      simp only [List.getElem_map, List.getElem_range]
      rw [if_neg]
      intro hm
      obtain ⟨q, hq⟩ := Nat.dvd_of_mod_eq_zero hm
      have h1 : q ≤ k := by
        by_contra hc
        push Not at hc
        nlinarith
      obtain ⟨r, rfl⟩ := Nat.exists_eq_add_of_le h1
      have h2 : r * o.offset = q := by nlinarith
      rcases Nat.eq_zero_or_pos r with rfl | hr
      · omega
      · have : r * o.offset + r ≤ o.offset := by omega
        nlinarith
    · rw [List.getD_eq_getElem _ _ (by simp), List.getElem_set_self,
        List.getLastD_eq_getLast?, List.getLast?_eq_getElem?, hcl, List.getElem?_drop,
        List.getElem?_eq_getElem (by omega), List.getD_eq_getElem _ _ (by omega)]
      rfl
  · rw [h]
    simp only [Nat.add_sub_cancel]
    have : o.offset + 2 - 1 = o.offset + 1 := by omega
    rw [this]

/-- **New coefficients do not reach the realtime filters**: with the same number of FIR coefficients
(not exactly one) `process_sample` answers as before.  The third numerator coefficient of each section
keeps its value. -/
theorem C111_coefficients_ignored (s s' : Obj) (c : List (ℝ × ℝ)) (f : List ℝ)
    (hs : setCoefficients s c (some f) = .ok s') (hf : f.length = s.nFir) (h1 : s.nFir ≠ 1) (x : ℝ)
    (ch : ℕ) :
    (process s' x ch).1 = (process s x ch).1 ∧
    ∃ l, s.sos = some l ∧ c.length = l.length ∧
      s'.sos = some (List.zipWith (fun s v => (v.1 :: v.2 :: s.1.drop 2, s.2)) l c) := by
  unfold setCoefficients at hs
  rcases hl : s.sos with _ | l
  · rw [hl] at hs
    simp at hs
  · rw [hl] at hs
    simp only at hs
    split_ifs at hs with hc
    cases hs
    refine ⟨?_, l, rfl, by simpa using hc, rfl⟩
    rcases s with ⟨s1, s2, s3, s4, s5, s6, s7, s8, s9⟩
    simp only [Option.getD_some] at *
    subst hf
    unfold process tail
    simp only [h1, if_false]
    by_cases h2 : 1 < f.length
    · simp only [h2, if_true]
      rcases s8 with _ | g
      · rfl
      · simp only
        rcases (FIRFilter.filter g.1).process g.2 x ch with ⟨r, st⟩
        cases r with
        | error e => rfl
        | ok y =>
          simp only
          by_cases h3 : 0 < s3
          · simp only [h3, if_true]
            rcases s9 with _ | d
            · rfl
            · simp only
              rcases (FIRFilter.filter d.1).process d.2 x ch with ⟨r, st⟩
              cases r with
              | error e => rfl
              | ok y => cases s7 <;> rfl
          · simp only [h3, if_false]
            cases s7 <;> rfl
    · simp only [h2, if_false]
      by_cases h3 : 0 < s3
      · simp only [h3, if_true]
        rcases s9 with _ | d
        · rfl
        · simp only
          rcases (FIRFilter.filter d.1).process d.2 x ch with ⟨r, st⟩
          cases r with
          | error e => rfl
          | ok y => cases s7 <;> rfl
      · simp only [h3, if_false]
        cases s7 <;> rfl

/-- **New coefficients reach `filter_signal`**: afterwards it filters with the given numerators (the
third coefficient of each section keeps its value) and the given FIR part, or without FIR part if none
is given, whatever the number of FIR coefficients was. -/
theorem C111_coefficients (s s' : Obj) (l : List (List ℝ × List ℝ)) (hl : s.sos = some l)
    (c : List (ℝ × ℝ)) (fir : Option (List ℝ)) (hs : setCoefficients s c fir = .ok s')
    (hg : Good (List.zipWith (fun s v => (v.1 :: v.2 :: s.1.drop 2, s.2)) l c)) (x : List ℝ) :
    c.length = l.length ∧ filterSignal s' x = .ok ((List.range x.length).map fun (n : ℕ) =>
      coeff n (tf (List.zipWith (fun s v => (v.1 :: v.2 :: s.1.drop 2, s.2)) l c) (fir.getD [])
        s.delay * zseries x)) := by
  unfold setCoefficients at hs
  rw [hl] at hs
  dsimp only at hs
  split_ifs at hs with hc
  cases hs
  exact ⟨by simpa using hc, filterSignal_spec _ _ _ hg rfl rfl (List.eq_nil_of_length_eq_zero) x⟩

/-- A section whose leading coefficient is exactly zero loses this delay in the realtime filters,
since `sos2tf` drops the coefficient: both ways of filtering disagree. -/
theorem C111_leading_zero_wrong : ∃ o : Obj, (fit o [(0, 0)] [0, 1, 0]).1 = .ok () ∧
    (process (fit o [(0, 0)] [0, 1, 0]).2 1 0).1 = .ok 1 ∧
    filterSignal (fit o [(0, 0)] [0, 1, 0]).2 [1] = .ok [0] := by
  refine ⟨⟨48000, 0, 0, 1, none, none, none, none, none⟩, by simp [fit, spread], ?_, ?_⟩
  · simp [fit, spread, computeFilters, fittedSos, process, tail, iirLoop, iirStep, sos2tf,
      IIRFilter.filter, IIRFilter.process, IIRFilter.coeffs, IIRFilter.order, IIRFilter.padTo,
      IIRFilter.normalise]
  · have hsos : (fit ⟨48000, 0, 0, 1, none, none, none, none, none⟩ [(0, 0)] [0, 1, 0]).2.sos =
        some [([0, 1, 0], [1, 0, 0])] := by
      simp [fit, spread, computeFilters, fittedSos]
    rw [filterSignal_spec _ [([0, 1, 0], [1, 0, 0])] []
      (by intro c hc; simp at hc; subst hc; simp [IIRFilter.order]) hsos
      (by simp [fit, spread, computeFilters]) (fun _ => rfl)]
    simp [tf, ratio, constant_series]

/-- **A delay set after the fit** breaks the realtime interface: if the object never had a delay and
at most one FIR coefficient, every sample raises AttributeError. -/
theorem C111_late_delay (o s' : Obj) (dens : List (ℝ × ℝ)) (sol : List ℝ) (d : ℤ) (ms : ℝ)
    (h0 : o.delay = 0) (h1 : o.iirDelay = none) (hn : o.nFir ≤ 1)
    (hd : 0 < d) (hs : setParameters (fit o dens sol).2 (some d) ms = .ok s') (x : ℝ) (ch : ℕ) :
    (process s' x ch).1 = .error .attributeError := by
  have hspread : spread o.offset o.nFir (sol.drop (3 * dens.length)) = .ok (sol.drop (3 * dens.length)) := by
    unfold spread
    rw [if_neg (by omega)]
  unfold fit at hs
  simp only [hspread] at hs
  unfold setParameters at hs
  simp only at hs
  rw [if_neg (by omega)] at hs
  cases hs
  have hd' : 0 < d.toNat := by omega
  unfold process tail
  simp only [computeFilters, h0, lt_irrefl, if_false, hd', if_true, h1]
  have : ¬ 1 < o.nFir := by omega
  simp only [this, if_false]
  by_cases h2 : o.nFir = 1
  · simp [h2, Except.map]
  · simp [h2]

/-- The disagreement between both ways of filtering after `set_coefficients`. -/
theorem C111_stale : ∃ (o : Obj) (s' : Obj), (fit o [(0, 0)] [1, 0, 0]).1 = .ok () ∧
    setCoefficients (fit o [(0, 0)] [1, 0, 0]).2 [(2, 0)] none = .ok s' ∧
    (process s' 1 0).1 = .ok 1 ∧ filterSignal s' [1] = .ok [2] := by
  let o : Obj := ⟨48000, 0, 0, 1, none, none, none, none, none⟩
  have hfit : (fit o [(0, 0)] [1, 0, 0]).1 = .ok () := by simp [fit, spread, o]
  have hlen : [(1 : ℝ), 0, 0].length = 3 * [((0 : ℝ), (0 : ℝ))].length + o.nFir := rfl
  have hb : ∀ i < [((0 : ℝ), (0 : ℝ))].length, [(1 : ℝ), 0, 0].getD (3 * i) 0 ≠ 0 := by
    intro i hi
    have : i = 0 := by simpa using hi
    subst this
    simp
  have hsos : (fit o [(0, 0)] [1, 0, 0]).2.sos = some [([1, 0, 0], [1, 0, 0])] := by
    obtain ⟨b, -, -, -, -, h, -⟩ := fit_inv o _ _ hlen hb hfit
    rw [h]
    simp [fittedSos]
  have hnf : (fit o [(0, 0)] [1, 0, 0]).2.nFir = 0 := by
    obtain ⟨b, -, -, h, -⟩ := fit_inv o _ _ hlen hb hfit
    exact h
  have hdl : (fit o [(0, 0)] [1, 0, 0]).2.delay = 0 := by
    obtain ⟨b, -, -, -, h, -⟩ := fit_inv o _ _ hlen hb hfit
    exact h
  refine ⟨o, _, hfit, by unfold setCoefficients; simp only [hsos]; rfl, ?_, ?_⟩
  · have h1 := (C111_coefficients_ignored (fit o [(0, 0)] [1, 0, 0]).2 _ [(2, 0)] []
      (by unfold setCoefficients; simp only [hsos]; rfl) (by rw [hnf]; rfl) (by rw [hnf]; omega) 1 0).1
    refine h1.trans ?_
    obtain ⟨y, h2, -, h3⟩ := (C111_streaming o _ _ (by simp) hlen hb hfit [] 1 0).1 (by decide)
    refine h3.trans ?_
    congr 1
    rw [filterSignal_spec _ [([1, 0, 0], [1, 0, 0])] [] (by intro c hc; simp at hc; subst hc; simp [IIRFilter.order])
      hsos (by obtain ⟨b, -, hF, -, -, -, h, -⟩ := fit_inv o _ _ hlen hb hfit; rw [h, hF.1 rfl])
      (fun _ => rfl)] at h2
    obtain rfl := Except.ok.inj h2
    simp [tf, pastInputs, hdl, ratio, constant_series]
  · rw [filterSignal_spec _ [([2, 0, 0], [1, 0, 0])] [] (by intro c hc; simp at hc; subst hc; simp [IIRFilter.order])
      (by simp) rfl (fun _ => rfl)]
    simp [tf, hdl, ratio, constant_series]

/-- A stable section, a delay and contiguous coefficients meet the hypotheses. -/
example : ∃ o : Obj, o.delay = 3 ∧ o.nFir = 2 ∧ o.offset = 1 ∧
    [(1 : ℝ), 2, 3, 4, 5].length = 3 * [((0 : ℝ), (0 : ℝ))].length + o.nFir ∧
    StableDen [1, 0, 0] ∧ (fit o [(0, 0)] [1, 2, 3, 4, 5]).1 = .ok () := by
  refine ⟨⟨48000, 2, 3, 1, none, none, none, none, none⟩, rfl, rfl, rfl, rfl, ?_, ?_⟩
  · intro w _
    simp [Finset.sum_range_succ]
  · simp [fit, spread]

end Verif.Props.C111
