import Verif.Model.Parallel
import Verif.Lemmas.Implements
import Verif.Lemmas.FilterBank
import Verif.Props.C01

/-! Lemmas about parallel filters. -/

namespace Verif.Parallel

open PowerSeries Bank

/-- The sample-by-sample FIR filter has the transfer function `B`. -/
theorem fir_implements (b : List ℝ) (hb : 2 ≤ b.length) :
    Implements (FIRFilter.filter b) (lastOut (zseries b)) := by
  refine ⟨fun h x ch hc => ?_, fun h x ch hc => ?_⟩
  · rw [FIRFilter.C01_fir_history b hb, if_pos hc, ← coeff_zseries_mul _ _ (by simp)]
    rfl
  · rw [FIRFilter.C01_fir_history b hb, if_neg (by omega)]

theorem fir_error_same (b : List ℝ) (s : FIRFilter.State ℝ) (x : ℝ) (ch : ℕ) (e : Err)
    (h : ((FIRFilter.filter b).process s x ch).1 = .error e) :
    ((FIRFilter.filter b).process s x ch).2 = s := by
  simp only [FIRFilter.filter, FIRFilter.process] at h ⊢
  split_ifs at h ⊢ <;> rfl

theorem iir_error_same (b a : List ℝ) (s : IIRFilter.State ℝ) (x : ℝ) (ch : ℕ) (e : Err)
    (h : ((IIRFilter.filter b a).process s x ch).1 = .error e) :
    ((IIRFilter.filter b a).process s x ch).2 = s := by
  simp only [IIRFilter.filter, IIRFilter.process] at h ⊢
  split_ifs at h ⊢
  rfl

/-- Coefficients of the sections that can be computed. -/
def Good (l : List (List ℝ × List ℝ)) : Prop :=
  ∀ c ∈ l, c.2.getD 0 0 ≠ 0 ∧ 1 ≤ IIRFilter.order c.1 c.2

/-- The filters with the states after a history. -/
noncomputable def iirAfter (l : List (List ℝ × List ℝ)) (H : List (Op ℝ)) :
    List ((List ℝ × List ℝ) × IIRFilter.State ℝ) :=
  l.map fun c => (c, (IIRFilter.filter c.1 c.2).after H)

theorem iirLoop_ok (l : List (List ℝ × List ℝ)) (hl : Good l) (H : List (Op ℝ)) (x : ℝ) (ch : ℕ)
    (hch : ch < nChannels H) :
    iirLoop (iirAfter l H) x ch =
      (.ok (l.map fun c => lastOut (ratio c.1 c.2) (x :: pastInputs ch H)).sum,
        iirAfter l (H ++ [.sample x ch])) := by
  induction l with
  | nil => rfl
  | cons c l ih =>
    have ih := ih fun c' hc' => hl c' (List.mem_cons_of_mem _ hc')
    obtain ⟨h1, h2⟩ := hl c (List.mem_cons_self ..)
    have ha := (iir_implements c.1 c.2 h1 h2).answer H x ch hch
    unfold RTFilter.answer at ha
    unfold iirAfter at ih ⊢
    rw [List.map_cons, List.map_cons, List.map_cons, List.sum_cons]
    simp only [iirLoop, iirStep, ih]
    rcases hp : (IIRFilter.filter c.1 c.2).process ((IIRFilter.filter c.1 c.2).after H) x ch with ⟨r, s⟩
    rw [hp] at ha
    dsimp only at ha
    subst ha
    simp only [RTFilter.after_snoc, RTFilter.exec, hp]

theorem iirLoop_bad (l : List (List ℝ × List ℝ)) (hl : Good l) (hne : l ≠ []) (H : List (Op ℝ)) (x : ℝ)
    (ch : ℕ) (hch : nChannels H ≤ ch) :
    iirLoop (iirAfter l H) x ch = (.error .indexError, iirAfter l H) := by
  obtain ⟨c, l', rfl⟩ := List.exists_cons_of_ne_nil hne
  obtain ⟨h1, h2⟩ := hl c (List.mem_cons_self ..)
  have ha := (iir_implements c.1 c.2 h1 h2).refused H x ch hch
  unfold RTFilter.answer at ha
  have hs := iir_error_same c.1 c.2 _ x ch _ ha
  unfold iirAfter
  rw [List.map_cons]
  simp only [iirLoop, iirStep]
  rcases hp : (IIRFilter.filter c.1 c.2).process ((IIRFilter.filter c.1 c.2).after H) x ch with ⟨r, s⟩
  rw [hp] at ha hs
  dsimp only at ha hs
  subst ha hs
  rfl

theorem iirAfter_bad (l : List (List ℝ × List ℝ)) (hl : Good l) (H : List (Op ℝ)) (x : ℝ)
    (ch : ℕ) (hch : nChannels H ≤ ch) : iirAfter l (H ++ [.sample x ch]) = iirAfter l H := by
  unfold iirAfter
  refine List.map_congr_left fun c hc => ?_
  obtain ⟨h1, h2⟩ := hl c hc
  have ha := (iir_implements c.1 c.2 h1 h2).refused H x ch hch
  unfold RTFilter.answer at ha
  rw [RTFilter.after_snoc]
  simp only [RTFilter.exec]
  rw [iir_error_same c.1 c.2 _ x ch _ ha]

theorem fir_bad (b : List ℝ) (hb : 2 ≤ b.length) (H : List (Op ℝ)) (x : ℝ)
    (ch : ℕ) (hch : nChannels H ≤ ch) :
    (FIRFilter.filter b).process ((FIRFilter.filter b).after H) x ch =
      (.error .indexError, (FIRFilter.filter b).after H) ∧
    (FIRFilter.filter b).after (H ++ [.sample x ch]) = (FIRFilter.filter b).after H := by
  have ha := (fir_implements b hb).refused H x ch hch
  unfold RTFilter.answer at ha
  have hs := fir_error_same b _ x ch _ ha
  refine ⟨Prod.ext ha hs, ?_⟩
  rw [RTFilter.after_snoc]
  exact hs

theorem fir_good (b : List ℝ) (hb : 2 ≤ b.length) (H : List (Op ℝ)) (x : ℝ)
    (ch : ℕ) (hch : ch < nChannels H) :
    (FIRFilter.filter b).process ((FIRFilter.filter b).after H) x ch =
      (.ok (lastOut (zseries b) (x :: pastInputs ch H)),
        (FIRFilter.filter b).after (H ++ [.sample x ch])) := by
  have ha := (fir_implements b hb).answer H x ch hch
  unfold RTFilter.answer at ha
  refine Prod.ext ha ?_
  rw [RTFilter.after_snoc]
  rfl

/-! ### The object after the fit -/

/-- The coefficients of the delay. -/
noncomputable def delayTaps (d : ℕ) : List ℝ := List.replicate d 0 ++ [1]

theorem delayTaps_length (d : ℕ) : (delayTaps d).length = d + 1 := by simp [delayTaps]

theorem delayTaps_series (d : ℕ) : zseries (delayTaps d) = X ^ d := by
  ext n
  rw [zseries_coeff, coeff_X_pow]
  by_cases h : n < d
  · rw [delayTaps, List.getD_append _ _ _ _ (by simpa using h), if_neg (by omega)]
    rw [List.getD_eq_getElem _ _ (by simpa using h)]
    simp
  · rw [delayTaps, List.getD_append_right _ _ _ _ (by simp; omega)]
    by_cases h2 : n = d
    · simp [h2]
    · rw [if_neg h2, List.getD_eq_default _ _ (by simp; omega)]

/-- The history behind the delay. -/
noncomputable def behind (d : ℕ) (h : List (Op ℝ)) : List (Op ℝ) :=
  if 0 < d then seen (FIRFilter.filter (delayTaps d)) (fun _ y => y) h else h

theorem behind_spec (d : ℕ) (h : List (Op ℝ)) :
    nChannels (behind d h) = nChannels h ∧
    ∀ ch, pastInputs ch (behind d h) = mapTails (lastOut (X ^ d)) (pastInputs ch h) := by
  unfold behind
  by_cases hd : 0 < d
  · rw [if_pos hd]
    have := (fir_implements (delayTaps d) (by rw [delayTaps_length]; omega)).seen (fun _ y => y)
      (lastOut (zseries (delayTaps d))) (fun _ _ => rfl) h
    rw [delayTaps_series] at this
    exact this
  · rw [if_neg hd]
    refine ⟨rfl, fun ch => ?_⟩
    have h0 : d = 0 := by omega
    subst h0
    rw [mapTails_id]
    intro x xs
    unfold lastOut
    rw [pow_zero, one_mul, zseries_coeff, List.reverse_cons, List.getD_append_right _ _ _ _ (by simp)]
    simp

theorem behind_snoc (d : ℕ) (h : List (Op ℝ)) (op : Op ℝ) :
    behind d (h ++ [op]) = match op with
      | .sample x c =>
        if 0 < d then
          (if c < nChannels h then behind d h ++ [.sample (lastOut (X ^ d) (x :: pastInputs c h)) c]
            else behind d h)
        else behind d h ++ [.sample x c]
      | op => behind d h ++ [op] := by
  have hi := fun hd : 0 < d => fir_implements (delayTaps d) (by rw [delayTaps_length]; omega)
  unfold behind
  by_cases hd : 0 < d
  · simp only [hd, if_true]
    rw [seen_snoc]
    cases op with
    | reset => rfl
    | setChannels m => rfl
    | sample x c =>
      dsimp only
      by_cases hc : c < nChannels h
      · rw [if_pos hc, (hi hd).answer h x c hc, delayTaps_series]
      · rw [if_neg hc, (hi hd).refused h x c (by omega)]
  · simp only [hd, if_false]
    cases op <;> rfl

/-- The object `s` after the history `h` that started with the object `o` just fitted, with the
sections `l` and the FIR coefficients `b`. -/
structure Inv (o : Obj) (l : List (List ℝ × List ℝ)) (b : List ℝ) (h : List (Op ℝ)) (s : Obj) :
    Prop where
  nFir : s.nFir = o.nFir
  delay : s.delay = o.delay
  sos : s.sos = o.sos
  coeffs : s.firCoeffs = some b
  iir : s.iir = some (iirAfter l (behind o.delay h))
  fir : 1 < o.nFir → s.fir = some (b, (FIRFilter.filter b).after h)
  firEx : 0 < o.nFir → s.fir ≠ none
  iirDelay : 0 < o.delay → s.iirDelay =
    some (delayTaps o.delay, (FIRFilter.filter (delayTaps o.delay)).after h)

theorem tail_good {o : Obj} {l b h s} (hl : Good l) (hi : Inv o l b h s) (x : ℝ) (ch : ℕ)
    (hch : ch < nChannels h) :
    (tail s x ch).1 = .ok (l.map fun c => lastOut (ratio c.1 c.2 * X ^ o.delay)
        (x :: pastInputs ch h)).sum ∧
    (tail s x ch).2 = { s with
      iir := some (iirAfter l (behind o.delay (h ++ [.sample x ch])))
      iirDelay := if 0 < o.delay then some (delayTaps o.delay,
        (FIRFilter.filter (delayTaps o.delay)).after (h ++ [.sample x ch])) else s.iirDelay } := by
  obtain ⟨hb1, hb2⟩ := behind_spec o.delay h
  have hsum : ∀ v, (v :: pastInputs ch (behind o.delay h)) =
      mapTails (lastOut (X ^ o.delay)) (x :: pastInputs ch h) →
      (l.map fun c => lastOut (ratio c.1 c.2) (v :: pastInputs ch (behind o.delay h))).sum =
      (l.map fun c => lastOut (ratio c.1 c.2 * X ^ o.delay) (x :: pastInputs ch h)).sum := by
    intro v hv
    rw [hv]
    congr 1
    exact List.map_congr_left fun c _ => lastOut_mapTails _ _ _
  unfold tail
  rw [behind_snoc]
  by_cases hd : 0 < o.delay
  · have hd' : 0 < s.delay := by rw [hi.delay]; exact hd
    simp only [hd, hd', if_true, hi.iirDelay hd, hch]
    rw [fir_good _ (by rw [delayTaps_length]; omega) h x ch hch]
    simp only [hi.iir]
    rw [iirLoop_ok l hl _ _ _ (by rw [hb1]; exact hch), delayTaps_series]
    refine ⟨?_, rfl⟩
    dsimp only
    rw [hsum _ (by rw [mapTails_cons, hb2])]
  · have hd' : ¬ 0 < s.delay := by rw [hi.delay]; exact hd
    simp only [hd, hd', if_false, hi.iir]
    rw [iirLoop_ok l hl _ _ _ (by rw [hb1]; exact hch)]
    refine ⟨?_, rfl⟩
    dsimp only
    have h0 : o.delay = 0 := by omega
    rw [hsum _ (by
      rw [mapTails_cons, hb2, h0]
      congr 1
      unfold lastOut
      rw [pow_zero, one_mul, zseries_coeff, List.reverse_cons,
        List.getD_append_right _ _ _ _ (by simp)]
      simp)]

theorem tail_bad {o : Obj} {l b h s} (hl : Good l) (hne : l ≠ []) (hi : Inv o l b h s) (x : ℝ) (ch : ℕ)
    (hch : nChannels h ≤ ch) : tail s x ch = (.error .indexError, s) := by
  obtain ⟨hb1, hb2⟩ := behind_spec o.delay h
  unfold tail
  by_cases hd : 0 < o.delay
  · have hd' : 0 < s.delay := by rw [hi.delay]; exact hd
    simp only [hd', if_true, hi.iirDelay hd]
    rw [(fir_bad _ (by rw [delayTaps_length]; omega) h x ch hch).1]
    have e := hi.iirDelay hd
    rcases s with ⟨s1, s2, s3, s4, s5, s6, s7, s8, s9⟩
    simp only at e
    subst e
    rfl
  · have hd' : ¬ 0 < s.delay := by rw [hi.delay]; exact hd
    simp only [hd', if_false, hi.iir]
    rw [iirLoop_bad l hl hne _ _ _ (by rw [hb1]; exact hch)]
    have e := hi.iir
    rcases s with ⟨s1, s2, s3, s4, s5, s6, s7, s8, s9⟩
    simp only at e
    subst e
    rfl

/-- The tail does not depend on the FIR filter. -/
theorem tail_fir (s : Obj) (x : ℝ) (ch : ℕ) (f : Option (List ℝ × FIRFilter.State ℝ)) :
    (tail { s with fir := f } x ch).1 = (tail s x ch).1 ∧
      (tail { s with fir := f } x ch).2 = { (tail s x ch).2 with fir := f } := by
  rcases s with ⟨s1, s2, s3, s4, s5, s6, s7, s8, s9⟩
  unfold tail
  dsimp only
  by_cases hd : 0 < s3
  · simp only [hd, if_true]
    rcases s9 with _ | d
    · exact ⟨rfl, rfl⟩
    · dsimp only
      rcases (FIRFilter.filter d.1).process d.2 x ch with ⟨r, s'⟩
      cases r with
      | error e => exact ⟨rfl, rfl⟩
      | ok y => cases s7 <;> exact ⟨rfl, rfl⟩
  · simp only [hd, if_false]
    cases s7 <;> exact ⟨rfl, rfl⟩

/-- Transfer function of the fitted filter. -/
noncomputable def tf (l : List (List ℝ × List ℝ)) (b : List ℝ) (delay : ℕ) : PowerSeries ℝ :=
  zseries b + (l.map fun c => ratio c.1 c.2 * X ^ delay).sum

theorem lastOut_add (G H : PowerSeries ℝ) (xs : List ℝ) :
    lastOut (G + H) xs = lastOut G xs + lastOut H xs := by
  unfold lastOut
  rw [add_mul, map_add]

theorem lastOut_sum (l : List (List ℝ × List ℝ)) (f : List ℝ × List ℝ → PowerSeries ℝ) (xs : List ℝ) :
    lastOut (l.map f).sum xs = (l.map fun c => lastOut (f c) xs).sum := by
  induction l with
  | nil => simp [lastOut]
  | cons c l ih => rw [List.map_cons, List.sum_cons, lastOut_add, ih, List.map_cons, List.sum_cons]

theorem lastOut_zero (xs : List ℝ) : lastOut (zseries ([] : List ℝ)) xs = 0 := by
  have : zseries ([] : List ℝ) = 0 := by ext n; rw [zseries_coeff]; simp
  simp [lastOut, this]

theorem lastOut_one (c x : ℝ) (xs : List ℝ) : lastOut (zseries [c]) (x :: xs) = c * x := by
  have : zseries [c] = PowerSeries.C c := by
    ext n
    rw [zseries_coeff, PowerSeries.coeff_C]
    cases n <;> simp
  unfold lastOut
  rw [this, PowerSeries.coeff_C_mul, zseries_coeff, List.reverse_cons,
    List.getD_append_right _ _ _ _ (by simp)]
  simp

/-- Conditions on the FIR coefficients. -/
def FirOk (n : ℕ) (b : List ℝ) : Prop := (n = 0 → b = []) ∧ (n = 1 → b.length = 1) ∧ (1 < n → 2 ≤ b.length)

theorem step_good {o : Obj} {l b h s} (hl : Good l) (hb : FirOk o.nFir b) (hi : Inv o l b h s)
    (x : ℝ) (ch : ℕ) (hch : ch < nChannels h) :
    (process s x ch).1 = .ok (lastOut (tf l b o.delay) (x :: pastInputs ch h)) ∧
      Inv o l b (h ++ [.sample x ch]) (process s x ch).2 := by
  unfold tf
  rw [lastOut_add, lastOut_sum]
  unfold process
  by_cases h1 : 1 < o.nFir
  · have h1' : 1 < s.nFir := by rw [hi.nFir]; exact h1
    simp only [h1', if_true, hi.fir h1]
    rw [fir_good b (hb.2.2 h1) h x ch hch]
    dsimp only
    obtain ⟨t1, t2⟩ := tail_good hl hi x ch hch
    rw [(tail_fir s x ch _).1, (tail_fir s x ch _).2, t1, t2]
    refine ⟨rfl, ?_⟩
    exact ⟨hi.nFir, hi.delay, hi.sos, hi.coeffs, rfl, fun _ => rfl, fun _ => by simp, fun hd => if_pos hd⟩
  · have h1' : ¬ 1 < s.nFir := by rw [hi.nFir]; exact h1
    simp only [h1', if_false]
    obtain ⟨t1, t2⟩ := tail_good hl hi x ch hch
    have hinv : Inv o l b (h ++ [.sample x ch]) (tail s x ch).2 := by
      rw [t2]
      exact ⟨hi.nFir, hi.delay, hi.sos, hi.coeffs, rfl, fun hc => absurd hc h1, hi.firEx,
        fun hd => if_pos hd⟩
    by_cases h2 : o.nFir = 1
    · have h2' : s.nFir = 1 := by rw [hi.nFir]; exact h2
      simp only [h2', if_true, hi.coeffs]
      refine ⟨?_, hinv⟩
      rw [t1]
      simp only [Except.map]
      obtain ⟨c, rfl⟩ := List.length_eq_one_iff.1 (hb.2.1 h2)
      rw [lastOut_one]
      rfl
    · have h2' : ¬ s.nFir = 1 := by rw [hi.nFir]; exact h2
      simp only [h2', if_false]
      refine ⟨?_, hinv⟩
      rw [t1, hb.1 (by omega), lastOut_zero, zero_add]

theorem step_bad {o : Obj} {l b h s} (hl : Good l) (hne : l ≠ []) (hb : FirOk o.nFir b)
    (hi : Inv o l b h s) (x : ℝ) (ch : ℕ) (hch : nChannels h ≤ ch) :
    process s x ch = (.error .indexError, s) := by
  unfold process
  by_cases h1 : 1 < o.nFir
  · have h1' : 1 < s.nFir := by rw [hi.nFir]; exact h1
    simp only [h1', if_true, hi.fir h1]
    rw [(fir_bad b (hb.2.2 h1) h x ch hch).1]
    have e := hi.fir h1
    rcases s with ⟨s1, s2, s3, s4, s5, s6, s7, s8, s9⟩
    simp only at e
    subst e
    rfl
  · have h1' : ¬ 1 < s.nFir := by rw [hi.nFir]; exact h1
    simp only [h1', if_false]
    rw [tail_bad hl hne hi x ch hch]
    by_cases h2 : o.nFir = 1
    · have h2' : s.nFir = 1 := by rw [hi.nFir]; exact h2
      simp only [h2', if_true, hi.coeffs]
      rfl
    · have h2' : ¬ s.nFir = 1 := by rw [hi.nFir]; exact h2
      simp only [h2', if_false]

theorem inv_bad {o : Obj} {l b h s} (hl : Good l) (hb : FirOk o.nFir b)
    (hi : Inv o l b h s) (x : ℝ) (ch : ℕ) (hch : nChannels h ≤ ch) :
    Inv o l b (h ++ [.sample x ch]) s := by
  refine ⟨hi.nFir, hi.delay, hi.sos, hi.coeffs, ?_, fun h1 => ?_, hi.firEx, fun hd => ?_⟩
  · rw [hi.iir, behind_snoc]
    dsimp only
    by_cases hd : 0 < o.delay
    · rw [if_pos hd, if_neg (by omega)]
    · rw [if_neg hd, iirAfter_bad l hl _ _ _ (by rw [(behind_spec _ _).1]; exact hch)]
  · rw [hi.fir h1, (fir_bad b (hb.2.2 h1) h x ch hch).2]
  · rw [hi.iirDelay hd, (fir_bad _ (by rw [delayTaps_length]; omega) h x ch hch).2]

theorem inv_channels {o : Obj} {l b h s} (hi : Inv o l b h s) (n : ℕ) :
    (setChannels s n).1 = .ok () ∧ Inv o l b (h ++ [.setChannels n]) (setChannels s n).2 := by
  have hiir : (iirAfter l (behind o.delay h)).map (fun f => (f.1, IIRFilter.setChannels f.2 n)) =
      iirAfter l (behind o.delay (h ++ [.setChannels n])) := by
    rw [behind_snoc]
    unfold iirAfter
    rw [List.map_map]
    refine List.map_congr_left fun c _ => ?_
    simp only [Function.comp, RTFilter.after_snoc]
    rfl
  unfold setChannels
  simp only [hi.iir, hi.nFir, hi.delay]
  rw [if_neg (fun hc => hi.firEx hc.1 hc.2)]
  by_cases hd : 0 < o.delay
  · rw [if_neg (fun hc => by rw [hi.iirDelay hd] at hc; simp at hc), if_pos hd]
    refine ⟨rfl, ?_⟩
    by_cases h0 : 0 < o.nFir
    · simp only [h0, if_true]
      refine ⟨rfl, rfl, hi.sos, hi.coeffs, by rw [← hiir], fun h1 => ?_, fun _ => ?_, fun _ => ?_⟩
      · dsimp only
        rw [hi.fir h1, RTFilter.after_snoc]
        rfl
      · dsimp only
        have := hi.firEx h0
        rcases hf : s.fir with _ | f
        · exact absurd hf this
        · simp
      · dsimp only
        rw [hi.iirDelay hd, RTFilter.after_snoc]
        rfl
    · simp only [h0, if_false]
      refine ⟨rfl, rfl, hi.sos, hi.coeffs, by rw [← hiir], fun h1 => by omega,
        fun h1 => absurd h1 h0, fun _ => ?_⟩
      dsimp only
      rw [hi.iirDelay hd, RTFilter.after_snoc]
      rfl
  · rw [if_neg (fun hc => hd hc.1), if_neg hd]
    refine ⟨rfl, ?_⟩
    by_cases h0 : 0 < o.nFir
    · simp only [h0, if_true]
      refine ⟨rfl, rfl, hi.sos, hi.coeffs, by rw [← hiir], fun h1 => ?_, fun _ => ?_,
        fun hc => absurd hc hd⟩
      · dsimp only
        rw [hi.fir h1, RTFilter.after_snoc]
        rfl
      · dsimp only
        have := hi.firEx h0
        rcases hf : s.fir with _ | f
        · exact absurd hf this
        · simp
    · simp only [h0, if_false]
      exact ⟨rfl, rfl, hi.sos, hi.coeffs, by rw [← hiir], fun h1 => by omega,
        fun h1 => absurd h1 h0, fun hc => absurd hc hd⟩

theorem inv_reset {o : Obj} {l b h s} (hi : Inv o l b h s) :
    (reset s).1 = .ok () ∧ Inv o l b (h ++ [.reset]) (reset s).2 := by
  have hiir : (iirAfter l (behind o.delay h)).map (fun f => (f.1, IIRFilter.reset f.2)) =
      iirAfter l (behind o.delay (h ++ [.reset])) := by
    rw [behind_snoc]
    unfold iirAfter
    rw [List.map_map]
    refine List.map_congr_left fun c _ => ?_
    simp only [Function.comp, RTFilter.after_snoc]
    rfl
  unfold reset
  simp only [hi.iir, hi.nFir, hi.delay]
  rw [if_neg (fun hc => hi.firEx (by omega) hc.2)]
  by_cases hd : 0 < o.delay
  · rw [if_neg (fun hc => by rw [hi.iirDelay hd] at hc; simp at hc), if_pos hd]
    refine ⟨rfl, ?_⟩
    by_cases h0 : 1 < o.nFir
    · simp only [h0, if_true]
      refine ⟨rfl, rfl, hi.sos, hi.coeffs, by rw [← hiir], fun h1 => ?_, fun _ => ?_, fun _ => ?_⟩
      · dsimp only
        rw [hi.fir h1, RTFilter.after_snoc]
        rfl
      · dsimp only
        rw [hi.fir h0]
        exact Option.some_ne_none _
      · dsimp only
        rw [hi.iirDelay hd, RTFilter.after_snoc]
        rfl
    · simp only [h0, if_false]
      refine ⟨rfl, rfl, hi.sos, hi.coeffs, by rw [← hiir], fun h1 => by omega,
        hi.firEx, fun _ => ?_⟩
      dsimp only
      rw [hi.iirDelay hd, RTFilter.after_snoc]
      rfl
  · rw [if_neg (fun hc => hd hc.1), if_neg hd]
    refine ⟨rfl, ?_⟩
    by_cases h0 : 1 < o.nFir
    · simp only [h0, if_true]
      refine ⟨rfl, rfl, hi.sos, hi.coeffs, by rw [← hiir], fun h1 => ?_, fun _ => ?_,
        fun hc => absurd hc hd⟩
      · dsimp only
        rw [hi.fir h1, RTFilter.after_snoc]
        rfl
      · dsimp only
        rw [hi.fir h0]
        exact Option.some_ne_none _
    · simp only [h0, if_false]
      exact ⟨rfl, rfl, hi.sos, hi.coeffs, by rw [← hiir], fun h1 => by omega,
        hi.firEx, fun hc => absurd hc hd⟩

theorem inv_after {o : Obj} {l b} (hl : Good l) (hne : l ≠ []) (hb : FirOk o.nFir b)
    (h0 : Inv o l b [] o) (h : List (Op ℝ)) : Inv o l b h ((realtime o).after h) := by
  induction h using List.reverseRecOn with
  | nil => exact h0
  | append_singleton h op ih =>
    rw [RTFilter.after_snoc]
    cases op with
    | reset => exact (inv_reset ih).2
    | setChannels n => exact (inv_channels ih n).2
    | sample x ch =>
      by_cases hch : ch < nChannels h
      · exact (step_good hl hb ih x ch hch).2
      · have e : (realtime o).exec ((realtime o).after h) (.sample x ch) = (realtime o).after h := by
          simp only [RTFilter.exec]
          exact congrArg Prod.snd (step_bad hl hne hb ih x ch (by omega))
        rw [e]
        exact inv_bad hl hb ih x ch (by omega)

end Verif.Parallel
