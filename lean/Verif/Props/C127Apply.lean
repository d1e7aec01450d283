import Verif.Props.C127

/-!
# C127: the effect applied to signals, and its settings
-/

namespace Verif.Props.C127

open SpectralSubtraction SignalData Framing
open Verif.LFilter (getD_map_range ext_getD)

/-- A signal as it can be stored. -/
structure Stored (sig : State ℝ) : Prop where
  channels : 1 ≤ sig.re.cols
  tall : sig.re.cols ≤ sig.re.rows
  samples : 2 ≤ sig.re.rows
  amplitude : sig.constrain = true → ∀ r < sig.re.rows, ∀ c < sig.re.cols, |sig.sample r c| ≤ 1

theorem colOf_sample (u : State ℝ) (c : ℕ) (hc : c < u.re.cols) :
    colOf u.re c = (List.range u.re.rows).map fun (r : ℕ) => u.sample r c := by
  unfold colOf
  refine List.map_congr_left fun r hr => ?_
  unfold State.sample
  rw [if_pos ⟨List.mem_range.1 hr, hc⟩]

theorem range_getD (l : List ℝ) : l = (List.range l.length).map fun (r : ℕ) => l.getD r 0 := by
  refine ext_getD _ _ (by simp) fun i hi => ?_
  rw [getD_map_range, if_pos hi]

/-- The processed channels get back the peaks that they had before; channels that were silenced
completely consist of `nan`. -/
theorem C127_apply (s : Settings) (win : ℕ → List ℝ) (sig : State ℝ) (fs W : ℕ) (h : Stored sig)
    (hW : windowLength s fs = .ok W) (Y : ℕ → List ℝ)
    (hY : ∀ c < sig.re.cols, channel s win W fs sig.constrain (colOf sig.re c) = .ok (Y c) ∧
      (Y c).length = sig.re.rows) :
    ∃ u nan, apply s win sig fs = .ok (u, nan) ∧ u.HasShape sig.re.rows sig.re.cols ∧
      u.constrain = sig.constrain ∧ ∀ c < sig.re.cols, ∀ P Q, IsPeak (colOf sig.re c) P → IsPeak (Y c) Q →
        (nan c ↔ Q = 0) ∧ (Q ≠ 0 → IsPeak (colOf u.re c) P ∧
          ∀ r < sig.re.rows, u.sample r c = (Y c).getD r 0 * (P / Q)) := by
  have h1 := h.channels
  have h2 := h.tall
  have h3 := h.samples
  have hmap : ((List.range sig.re.cols).mapM fun c => channel s win W fs sig.constrain (colOf sig.re c)) =
      .ok ((List.range sig.re.cols).map Y) :=
    Framing.mapM_ok _ _ _ fun c hc => (hY c (List.mem_range.1 hc)).1
  have hget : ∀ c < sig.re.cols, ((List.range sig.re.cols).map Y).getD c [] = Y c := by
    intro c hc
    rw [List.getD_eq_getElem _ _ (by simpa using hc), List.getElem_map, List.getElem_range]
  obtain ⟨x, hx⟩ : ∃ x : Input ℝ, x = ofCols sig.re.rows sig.re.cols
    fun c => ((List.range sig.re.cols).map Y).getD c [] := ⟨_, rfl⟩
  have hxr : x.rows = sig.re.rows := by rw [hx]; rfl
  have hxc : x.cols = sig.re.cols := by rw [hx]; rfl
  have hxv : ∀ r, ∀ c < sig.re.cols, x.re r c = (Y c).getD r 0 := by
    intro r c hc
    rw [hx]
    simp only [ofCols, hget c hc]
  obtain ⟨t, e, htc, hts, hsc, hsm, -, -⟩ := setData_scaled
    (⟨⟨0, 0, fun _ _ => 0⟩, none, sig.constrain, 1⟩ : State ℝ) x (by rw [hxr, hxc]; exact h2)
    (by rw [hxr]; omega) (by rw [hxc]; exact h1)
  have hcopy : copyWith sig x = .ok t := e
  rw [hxr, hxc] at hts
  rw [hxr, hxc] at hsm
  have hpos : 0 < t.scale := by
    rw [hsc]
    split_ifs with hp
    · have := hp.2
      positivity
    · exact one_pos
  have hcol : ∀ c < sig.re.cols, colOf t.re c = (Y c).map (· * t.scale) := by
    intro c hc
    rw [colOf_sample t c (by rw [hts.2]; exact hc), hts.1]
    conv_rhs => rw [range_getD (Y c), (hY c hc).2, List.map_map]
    refine List.map_congr_left fun r hr => ?_
    rw [hsm r (List.mem_range.1 hr) c hc, hxv r c hc]
    simp only [Function.comp]
    ring
  have hnew : ∀ c < sig.re.cols, Level.maxAbs (colOf t.re c) = Level.maxAbs (Y c) * t.scale := by
    intro c hc
    rw [hcol c hc, Level.maxAbs_scale, abs_of_pos hpos]
  have hval : ∀ r < sig.re.rows, ∀ c < sig.re.cols, t.re.val r c = t.scale * (Y c).getD r 0 := by
    intro r hr c hc
    have := hsm r hr c hc
    unfold State.sample at this
    rw [if_pos ⟨by rw [hts.1]; exact hr, by rw [hts.2]; exact hc⟩, hxv r c hc] at this
    exact this
  obtain ⟨z, hz⟩ : ∃ z : Input ℝ, z = ⟨t.re.rows, t.re.cols, fun r c => t.re.val r c *
    (Level.maxAbs (colOf sig.re c) / Level.maxAbs (colOf t.re c)), none⟩ := ⟨_, rfl⟩
  have hzv : ∀ r < sig.re.rows, ∀ c < sig.re.cols, z.re r c =
      (Y c).getD r 0 * (Level.maxAbs (colOf sig.re c) / Level.maxAbs (Y c)) := by
    intro r hr c hc
    rw [hz]
    simp only
    rw [hval r hr c hc, hnew c hc]
    by_cases h0 : Level.maxAbs (Y c) = 0
    · rw [h0]; simp
    · have := hpos.ne'
      field_simp
  have hpk : ∀ c < sig.re.cols, sig.constrain = true → Level.maxAbs (colOf sig.re c) ≤ 1 := by
    intro c hc hcon
    refine Level.maxAbs_le _ _ zero_le_one fun v hv => ?_
    rw [colOf_sample sig c hc] at hv
    obtain ⟨r, hr, rfl⟩ := List.mem_map.1 hv
    exact h.amplitude hcon r (List.mem_range.1 hr) c hc
  have hle : ∀ r < sig.re.rows, ∀ c < sig.re.cols, |z.re r c| ≤ Level.maxAbs (colOf sig.re c) := by
    intro r hr c hc
    rw [hzv r hr c hc]
    by_cases h0 : Level.maxAbs (Y c) = 0
    · rw [h0]; simpa using Level.maxAbs_nonneg _
    · have hQ := Level.maxAbs_pos _ h0
      have hP := Level.maxAbs_nonneg (colOf sig.re c)
      rw [abs_mul, abs_of_nonneg (div_nonneg hP hQ.le), mul_div_assoc', div_le_iff₀ hQ, mul_comm]
      refine mul_le_mul_of_nonneg_left (Level.le_maxAbs _ _ ?_) hP
      rw [List.getD_eq_getElem _ _ (by rw [(hY c hc).2]; exact hr)]
      exact List.getElem_mem _
  have hzr : z.rows = sig.re.rows := by rw [hz]; exact hts.1
  have hzc : z.cols = sig.re.cols := by rw [hz]; exact hts.2
  have hset : setData t z = .ok ⟨z.reMat, z.imMat, t.constrain, 1⟩ := by
    refine setData_ok t z (by rw [hzr, hzc]; exact h2) (by rw [hzr]; omega) fun hcon => ?_
    refine ⟨by rw [hzc]; exact h1, fun r hr c hc => ?_, fun f hf => ?_⟩
    · rw [hzr] at hr
      rw [hzc] at hc
      exact (hle r hr c hc).trans (hpk c hc (by rw [← hcon]; exact htc.symm))
    · rw [hz] at hf
      cases hf
  refine ⟨⟨z.reMat, z.imMat, t.constrain, 1⟩, fun c => Level.maxAbs (colOf t.re c) = 0, ?_, ⟨hzr, hzc⟩, htc, ?_⟩
  · unfold apply
    rw [hW]
    simp only
    rw [hmap]
    simp only
    rw [← hx, hcopy]
    simp only
    rw [← hz, hset]
  · intro c hc P Q hP hQ
    have eP := Level.isPeak_iff _ _ hP
    have eQ := Level.isPeak_iff _ _ hQ
    refine ⟨?_, fun hQ0 => ?_⟩
    · beta_reduce
      rw [hnew c hc, eQ]
      exact ⟨fun h => (mul_eq_zero.1 h).resolve_right hpos.ne', fun h => by rw [h, zero_mul]⟩
    · have hs : ∀ r < sig.re.rows, (⟨z.reMat, z.imMat, t.constrain, 1⟩ : State ℝ).sample r c =
          (Y c).getD r 0 * (P / Q) := by
        intro r hr
        unfold State.sample
        rw [if_pos ⟨by show r < z.rows; rw [hzr]; exact hr, by show c < z.cols; rw [hzc]; exact hc⟩]
        show z.re r c = _
        rw [hzv r hr c hc, eP, eQ]
      refine ⟨?_, hs⟩
      have hQpos : 0 < Q := by rw [eQ] at hQ0 ⊢; exact Level.maxAbs_pos _ hQ0
      have hcolu : colOf z.reMat c = (Y c).map (· * (P / Q)) := by
        have := colOf_sample (⟨z.reMat, z.imMat, t.constrain, 1⟩ : State ℝ) c (by show c < z.cols; rw [hzc]; exact hc)
        simp only at this
        rw [this]
        conv_rhs => rw [range_getD (Y c), (hY c hc).2, List.map_map]
        have hr' : z.reMat.rows = sig.re.rows := hzr
        rw [hr']
        refine List.map_congr_left fun r hr => ?_
        rw [hs r (List.mem_range.1 hr)]
        rfl
      have hP0 : 0 ≤ P := by rw [eP]; exact Level.maxAbs_nonneg _
      have hne : colOf z.reMat c ≠ [] := by
        rw [hcolu]
        intro hnil
        have hl := congrArg List.length hnil
        simp only [List.length_map, List.length_nil, (hY c hc).2] at hl
        omega
      have hpeak := Level.isPeak_maxAbs (colOf z.reMat c) hne
      have hval : Level.maxAbs (colOf z.reMat c) = P := by
        rw [hcolu, Level.maxAbs_scale, abs_of_nonneg (div_nonneg hP0 hQpos.le), ← eQ]
        field_simp
      rw [hval] at hpeak
      exact hpeak

/-- In the adaptive mode with all blocks of all channels above the threshold or silent, a signal without
silent channels comes back unchanged. -/
theorem C127_signal_unchanged (s : Settings) (hv : Valid s) (win : ℕ → List ℝ) (sig : State ℝ) (fs W : ℕ)
    (h : Stored sig) (hmode : s.adaptive = true) (hW : windowLength s fs = .ok W) (hwin : (win W).length = W)
    (hW1 : 1 < W) (he : Even W) (hs : 0 < stepSize s W)
    (hb : ∀ c < sig.re.cols, ∀ k < blocks sig.re.rows W (stepSize s W),
      s.threshold ≤ blockLevel (colOf sig.re c) W (stepSize s W) k ∨
      ∀ i < W, surrounded (colOf sig.re c) W (k * stepSize s W + i) = 0)
    (hS : ∀ j < sig.re.rows, 1 / 10 ^ 4 ≤ squaredWindows (clippedWindow win W) (stepSize s W)
      (blocks sig.re.rows W (stepSize s W)) (W + j))
    (hne : ∀ c < sig.re.cols, ∃ r < sig.re.rows, sig.sample r c ≠ 0) :
    ∃ u nan, apply s win sig fs = .ok (u, nan) ∧ u.HasShape sig.re.rows sig.re.cols ∧
      ∀ c < sig.re.cols, ¬ nan c ∧ ∀ r < sig.re.rows, u.sample r c = sig.sample r c := by
  have hwl := clippedWindow_length win W hwin
  have hlen : ∀ c, (colOf sig.re c).length = sig.re.rows := fun c => by simp [colOf]
  obtain ⟨u, nan, e, hsh, -, hc⟩ := C127_apply s win sig fs W h hW (fun c => colOf sig.re c) fun c hc => by
    refine ⟨?_, hlen c⟩
    unfold channel
    rw [if_pos hmode]
    refine C127_unchanged s hv _ _ (by rw [hwl]; exact hW1) (by rw [hwl]; exact he) (by rw [hwl]; exact hs) ?_ ?_
    · rw [hwl, hlen]
      exact hb c hc
    · rw [hwl, hlen]
      exact hS
  refine ⟨u, nan, e, hsh, fun c hcc => ?_⟩
  have hcne : colOf sig.re c ≠ [] := by
    intro hnil
    have := congrArg List.length hnil
    rw [hlen] at this
    have := h.samples
    simp at *
    omega
  have hp := Level.isPeak_maxAbs _ hcne
  obtain ⟨hn, hval⟩ := hc c hcc _ _ hp hp
  have h0 : Level.maxAbs (colOf sig.re c) ≠ 0 := by
    obtain ⟨r, hr, hr0⟩ := hne c hcc
    intro hz
    refine hr0 ((Level.maxAbs_zero_iff _).1 hz _ ?_)
    rw [colOf_sample sig c hcc]
    exact List.mem_map.2 ⟨r, List.mem_range.2 hr, rfl⟩
  refine ⟨fun hnan => h0 (hn.1 hnan), fun r hr => ?_⟩
  rw [(hval h0).2 r hr, div_self h0, mul_one, colOf_getD, if_pos hr]
  unfold State.sample
  rw [if_pos ⟨hr, hcc⟩]

/-- A silent channel is silent after the subtraction in the adaptive mode, so that it consists of `nan`
when its peak is restored. -/
theorem C127_silent_wrong (s : Settings) (hv : Valid s) (win : ℕ → List ℝ) (sig : State ℝ) (fs W : ℕ)
    (h : Stored sig) (hmode : s.adaptive = true) (hW : windowLength s fs = .ok W) (hwin : (win W).length = W)
    (hW1 : 1 < W) (hs : 0 < stepSize s W) (c : ℕ) (hc : c < sig.re.cols)
    (hz : ∀ r < sig.re.rows, sig.sample r c = 0) :
    ∃ u nan, apply s win sig fs = .ok (u, nan) ∧ nan c := by
  have hwl := clippedWindow_length win W hwin
  have hlen : ∀ c, (colOf sig.re c).length = sig.re.rows := fun c => by simp [colOf]
  have hex : ∀ c, ∃ y, adaptiveChannel s (clippedWindow win W) (colOf sig.re c) = .ok y ∧
      y.length = sig.re.rows ∧ ((∀ r < sig.re.rows, (colOf sig.re c).getD r 0 = 0) →
        ∀ r < sig.re.rows, y.getD r 0 = 0) := by
    intro c
    obtain ⟨y, hy, hyl, Y, hR, hval⟩ := C127_adaptive s hv (clippedWindow win W) (colOf sig.re c)
      (by rw [hwl]; exact hW1) (by rw [hwl]; exact hs)
    refine ⟨y, hy, by rw [hyl, hlen], fun hzero r hr => ?_⟩
    rw [hval r (by rw [hlen]; exact hr)]
    unfold overlapped
    rw [Finset.sum_eq_zero, zero_div]
    intro k hk
    have hsil : ∀ i < (clippedWindow win W).length, surrounded (colOf sig.re c) (clippedWindow win W).length
        (k * stepSize s (clippedWindow win W).length + i) = 0 := by
      intro i _
      unfold surrounded
      split_ifs with hcond
      · exact hzero _ (by rw [hlen] at hcond; omega)
      · rfl
    have hY0 : Y k = fun _ => 0 := by
      funext b
      obtain ⟨⟨g, -, -, hg⟩, -⟩ := hR k (Finset.mem_range.1 hk) b
      rw [hg, bins_silent _ _ _ _ hsil b, mul_zero]
    split_ifs
    · rw [hY0]
      have : ∀ n j, DFT.irfft n (fun _ => 0) j = 0 := by
        intro n j
        unfold DFT.irfft
        rw [Finset.sum_eq_zero]
        · simp
        · intro m _
          unfold DFT.herm
          split_ifs <;> simp
      rw [this, zero_mul]
    · rfl
  choose Y hY1 hY2 hY3 using hex
  obtain ⟨u, nan, e, -, -, hcc⟩ := C127_apply s win sig fs W h hW Y fun c hc => by
    refine ⟨?_, hY2 c⟩
    unfold channel
    rw [if_pos hmode]
    exact hY1 c
  refine ⟨u, nan, e, ?_⟩
  have h2 := h.samples
  have hne1 : colOf sig.re c ≠ [] := fun hnil => by
    have := congrArg List.length hnil
    rw [hlen, List.length_nil] at this
    omega
  have hne2 : Y c ≠ [] := fun hnil => by
    have := congrArg List.length hnil
    rw [hY2, List.length_nil] at this
    omega
  refine ((hcc c hc _ _ (Level.isPeak_maxAbs _ hne1) (Level.isPeak_maxAbs _ hne2)).1).2 ?_
  rw [Level.maxAbs_zero_iff]
  intro v hv
  obtain ⟨i, hi, rfl⟩ := List.getElem_of_mem hv
  rw [← List.getD_eq_getElem (Y c) 0 hi]
  refine hY3 c (fun r hr => ?_) i (by rw [← hY2 c]; exact hi)
  rw [colOf_getD, if_pos hr]
  have := hz r hr
  unfold State.sample at this
  rwa [if_pos ⟨hr, hc⟩] at this

/-! ## Settings -/

/-- A call of one of the two setters. -/
inductive Call where
  | basic (adaptive : Option Bool) (threshold block : Option ℝ) (spectrum : SpecArg)
  | advanced (overlap : ℕ) (forget factor expo attackMs releaseMs : ℝ)

/-- The object after a call, refused or not. -/
noncomputable def exec (s : Settings) : Call → Settings
  | .basic a t b v => setParameters s a t b v
  | .advanced o f fa e at' re => (setAdvanced s o f fa e at' re).2

theorem setBasic_valid (s : Settings) (a : Option Bool) (t b : Option ℝ) (v : SpecArg) (h : Valid s) :
    Valid (setBasic s a t b v) := by
  obtain ⟨h1, h2, h3, h4⟩ := h
  unfold setBasic
  cases v with
  | none => exact ⟨h1, h2, h3, h4⟩
  | no => exact ⟨h1, h2, h3, h4⟩
  | vector v =>
    dsimp only
    split_ifs <;> exact ⟨h1, h2, h3, h4⟩

theorem setAdvanced_valid (s : Settings) (o : ℕ) (f fa e a r : ℝ) (h : Valid s) :
    Valid (setAdvanced s o f fa e a r).2 := by
  obtain ⟨v1, v2, v3, v4⟩ := h
  unfold setAdvanced
  dsimp only
  split_ifs with h1 h2 h3 h4 h5 h6 <;> constructor <;> assumption

/-- Every history of the object keeps its settings valid, whether calls are refused or not. -/
theorem C127_settings (adaptive : Bool) (threshold block : ℝ) (spectrum : SpecArg) (calls : List Call) :
    (new adaptive threshold block spectrum).1 = none ∧
      Valid (calls.foldl exec (new adaptive threshold block spectrum).2) := by
  have hnew : (new adaptive threshold block spectrum).1 = none ∧
      Valid (new adaptive threshold block spectrum).2 := by
    unfold new setAdvanced
    dsimp only
    rw [if_neg (by norm_num), if_neg (by norm_num), if_neg (by norm_num), if_neg (by norm_num),
      if_neg (by norm_num), if_neg (by norm_num)]
    exact ⟨rfl, by norm_num, by norm_num, by norm_num, by norm_num⟩
  refine ⟨hnew.1, ?_⟩
  generalize (new adaptive threshold block spectrum).2 = s at hnew
  have hv := hnew.2
  clear hnew
  induction calls generalizing s with
  | nil => exact hv
  | cons c rest ih =>
    refine ih (exec s c) ?_
    cases c with
    | basic a t b v => exact setBasic_valid s a t b v hv
    | advanced o f fa e a r => exact setAdvanced_valid s o f fa e a r hv

/-- `set_advanced_parameters` accepts exactly the documented values and stores them. -/
theorem C127_set_advanced (s : Settings) (o : ℕ) (f fa e a r : ℝ) :
    ((setAdvanced s o f fa e a r).1 = none ↔ o < 100 ∧ (0 < f ∧ f ≤ 1) ∧ 0 < fa ∧ 0 < e ∧ 0 ≤ a ∧ 0 ≤ r) ∧
    ((setAdvanced s o f fa e a r).1 = none → (setAdvanced s o f fa e a r).2 = { s with
      overlap := o, forget := f, factor := fa, expo := e, attackMs := a, releaseMs := r }) := by
  unfold setAdvanced
  dsimp only
  split_ifs <;> simp_all

/-- `set_parameters` with the spectrum `None` changes what is given and leaves the rest. -/
theorem C127_set_parameters (s : Settings) (a : Option Bool) (t b : Option ℝ) :
    setParameters s a t b .none =
      { s with adaptive := a.getD s.adaptive, threshold := t.getD s.threshold, block := b.getD s.block } := rfl

/-- A spectrum that is not zero switches the adaptive mode off. -/
theorem C127_spectrum_static (s : Settings) (a : Option Bool) (t b : Option ℝ) (v : List ℝ)
    (hv : ∃ x ∈ v, x ≠ 0) :
    (setParameters s a t b (.vector v)).adaptive = false ∧ (setParameters s a t b (.vector v)).spectrum = v := by
  have hv' : anyNonzero v := hv
  unfold setParameters setBasic
  dsimp only
  by_cases h : a.getD s.adaptive = true
  · rw [if_pos ⟨hv', h⟩]
    exact ⟨rfl, rfl⟩
  · rw [if_neg (fun hh => h hh.2)]
    exact ⟨by simpa using h, rfl⟩

/-- Changing only the threshold forgets the spectrum that was to be subtracted: the argument is `False` by
default, not `None`. -/
theorem C127_spectrum_forgotten_wrong (s : Settings) (t : ℝ) :
    (setParameters s (threshold := some t)).spectrum = [] := rfl

/-- The adaptive mode can be switched on again while a spectrum is stored. -/
theorem C127_adaptive_with_spectrum_wrong (s : Settings) (v : List ℝ) (hv : ∃ x ∈ v, x ≠ 0) :
    let s1 := setParameters s none none none (.vector v)
    let s2 := setParameters s1 (some true) none none .none
    s2.adaptive = true ∧ s2.spectrum = v :=
  ⟨rfl, (C127_spectrum_static s none none none v hv).2⟩

/-! ## The hypotheses can be met -/

/-- Two samples per block, rectangular windows without overlap, a low threshold. -/
example (x : List ℝ) :
    adaptiveChannel ⟨true, -4000, 1, [], 0, 0.9, 2, 2, 0.5, 30⟩ [1, 1] x = .ok x := by
  refine C127_unchanged_low_threshold _ ⟨by norm_num, by norm_num, by norm_num, by norm_num⟩ (by norm_num) _ x
    (by norm_num) (by decide) (by decide) fun j hj => ?_
  have hst : stepSize ⟨true, -4000, 1, [], 0, 0.9, 2, 2, 0.5, 30⟩ ([1, 1] : List ℝ).length = 2 := rfl
  rw [hst]
  have hi : ([1, 1] : List ℝ).length + j < blocks x.length ([1, 1] : List ℝ).length 2 * 2 := by
    unfold blocks
    simp only [List.length_cons, List.length_nil]
    omega
  refine le_trans (by norm_num : (1 : ℝ) / 10 ^ 4 ≤ 1) ?_
  have hk : (2 + j) / 2 < blocks x.length ([1, 1] : List ℝ).length 2 := by
    simp only [List.length_cons, List.length_nil] at hi ⊢
    omega
  unfold squaredWindows
  refine le_trans ?_ (Finset.single_le_sum (f := fun k => if k * 2 ≤ ([1, 1] : List ℝ).length + j ∧
    ([1, 1] : List ℝ).length + j < k * 2 + ([1, 1] : List ℝ).length then
    ([1, 1] : List ℝ).getD (([1, 1] : List ℝ).length + j - k * 2) 0 ^ 2 else 0) (fun k _ => by
      split_ifs
      · positivity
      · exact le_rfl) (Finset.mem_range.2 hk))
  simp only [List.length_cons, List.length_nil]
  rw [if_pos (by omega)]
  have : 0 + 1 + 1 + j - (2 + j) / 2 * 2 = 0 ∨ 0 + 1 + 1 + j - (2 + j) / 2 * 2 = 1 := by omega
  rcases this with e | e <;> rw [e] <;> norm_num

example : Valid (new false (-40) 0.1 (.vector [1, 2, 1])).2 :=
  (C127_settings false (-40) 0.1 (.vector [1, 2, 1]) []).2

end Verif.Props.C127
