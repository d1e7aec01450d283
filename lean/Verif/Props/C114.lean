import Verif.Model.CrestFactor
import Verif.Lemmas.Peak
import Verif.Lemmas.SignalData
import Verif.Lemmas.Framing
import Verif.Props.C33
import Mathlib.Analysis.SpecialFunctions.Log.Base
import Mathlib.Tactic.FieldSimp
import Mathlib.Tactic.NormNum

/-!
# C114: peak level, true peak level, RMS and crest factor
-/

namespace Verif.Level

open Verif.SignalData Verif.Calibration

theorem tiny_pos : 0 < tiny := by unfold tiny; positivity

theorem tiny_le_one : tiny ≤ 1 := by
  unfold tiny
  exact zpow_le_one_of_nonpos₀ (by norm_num) (by norm_num)

theorem down_pos : 0 < downFactor := by
  unfold downFactor fromDb
  exact Real.rpow_pos_of_pos (by norm_num) _

theorem down_inv : 1 / downFactor = 10 ^ ((12.04 : ℝ) / 20) := by
  unfold downFactor fromDb dbFactor
  rw [if_pos rfl, one_div, ← Real.rpow_neg (by norm_num)]
  norm_num

theorem one_le_down_inv : 1 ≤ 1 / downFactor := by
  rw [down_inv]
  exact Real.one_le_rpow (by norm_num) (by norm_num)

theorem down_le_one : downFactor ≤ 1 := by
  have h := one_le_down_inv
  rw [le_div_iff₀ down_pos] at h
  linarith

theorem amplitudeDb_eq (x : ℝ) (h : tiny ≤ x) : amplitudeDb x = 20 * Real.logb 10 x := by
  unfold amplitudeDb
  rw [abs_of_pos (tiny_pos.trans_le h), max_eq_left h]

theorem amplitudeDb_mono (x y : ℝ) (h0 : 0 ≤ x) (h : x ≤ y) : amplitudeDb x ≤ amplitudeDb y := by
  unfold amplitudeDb
  rw [abs_of_nonneg h0, abs_of_nonneg (h0.trans h)]
  have h1 : 0 < max x tiny := lt_max_of_lt_right tiny_pos
  have := Real.logb_le_logb_of_le (b := 10) (by norm_num) h1 (max_le_max_right tiny h)
  linarith

theorem fromDb_amplitudeDb (x : ℝ) (h : tiny ≤ x) : fromDb (amplitudeDb x) true = x := by
  rw [amplitudeDb_eq x h]
  unfold fromDb dbFactor
  rw [if_pos rfl, mul_div_cancel_left₀ _ (by norm_num : (20 : ℝ) ≠ 0)]
  exact Real.rpow_logb (by norm_num) (by norm_num) (tiny_pos.trans_le h)

theorem mem_colOf (A : Mat ℝ) (c : ℕ) (v : ℝ) : v ∈ colOf A c ↔ ∃ r < A.rows, A.val r c = v := by
  simp [colOf]

theorem colOf_ne_nil (A : Mat ℝ) (c : ℕ) (h : A.rows ≠ 0) : colOf A c ≠ [] := by
  intro h1
  have := colOf_length A c
  rw [h1] at this
  exact h this.symm

/-- The oversampling of the channels: four times as many samples, and homogeneous. -/
structure Oversampler (R : List ℝ → List ℝ) : Prop where
  length : ∀ x, (R x).length = 4 * x.length
  scale : ∀ x a, R (x.map (· * a)) = (R x).map (· * a)

/-- Oversampling by sample and hold. -/
def hold (x : List ℝ) : List ℝ := x.flatMap fun v => [v, v, v, v]

theorem hold_oversampler : Oversampler hold := by
  constructor
  · intro x
    induction x with
    | nil => rfl
    | cons a x ih =>
      have : hold (a :: x) = [a, a, a, a] ++ hold x := rfl
      rw [this, List.length_append, ih, List.length_cons]
      simp only [List.length_cons, List.length_nil]
      omega
  · intro x a
    induction x with
    | nil => rfl
    | cons b x ih =>
      have h1 : hold (b :: x) = [b, b, b, b] ++ hold x := rfl
      have h2 : hold ((b :: x).map (· * a)) =
        [b * a, b * a, b * a, b * a] ++ hold (x.map (· * a)) := rfl
      rw [h1, h2, ih, List.map_append]
      rfl

/-- A signal of a storable shape. -/
structure Fits (s : State ℝ) : Prop where
  shape : s.re.cols ≤ s.re.rows
  rows : 2 ≤ s.re.rows
  cols : 1 ≤ s.re.cols
  bounded : s.constrain = true → ∀ r < s.re.rows, ∀ c < s.re.cols, |s.re.val r c| ≤ 1

/-- Constrained signals: the oversampled channels stay below 12.04 dBTP. -/
def Headroom (R : List ℝ → List ℝ) (s : State ℝ) : Prop :=
  s.constrain = true → ∀ c < s.re.cols, ∀ v ∈ R (colOf s.re c), |v| ≤ 10 ^ ((12.04 : ℝ) / 20)

theorem truePeak_ok (R : List ℝ → List ℝ) (hR : Oversampler R) (s : State ℝ) (hs : Fits s)
    (hh : Headroom R s) :
    truePeakLevel R s = .ok
      ((List.range s.re.cols).map fun (c : ℕ) => amplitudeDb (maxAbs (R (colOf s.re c))),
        (List.range s.re.cols).map fun (c : ℕ) => amplitudeDb (maxAbs (colOf s.re c))) := by
  have hd := down_pos
  have hsh := hs.shape
  have hr2 := hs.rows
  have hc1 := hs.cols
  have e1 := setData_ok s ⟨s.re.rows, s.re.cols, fun r c => s.re.val r c * downFactor, none⟩
    hs.shape (fun h => by have := h.1; simp only at this; omega)
    (fun hc => ⟨hs.cols, fun r hr c hcc => by
      show |s.re.val r c * downFactor| ≤ 1
      rw [abs_mul, abs_of_pos hd]
      exact mul_le_one₀ (hs.bounded hc r hr c hcc) hd.le down_le_one, fun f hf => by cases hf⟩)
  set sig : State ℝ := ⟨Input.reMat ⟨s.re.rows, s.re.cols, fun r c => s.re.val r c * downFactor,
    none⟩, Input.imMat ⟨s.re.rows, s.re.cols, fun r c => s.re.val r c * downFactor, none⟩,
    s.constrain, 1⟩ with hsig
  have hcol : ∀ c, colOf sig.re c = (colOf s.re c).map (· * downFactor) := by
    intro c
    simp only [hsig, colOf, Input.reMat, List.map_map]
    rfl
  have hrows : sig.re.rows = s.re.rows := rfl
  have hcols : sig.re.cols = s.re.cols := rfl
  have hcon : sig.constrain = s.constrain := rfl
  have hRl : ∀ c, (R (colOf s.re c)).length = 4 * s.re.rows := fun c => by
    rw [hR.length, colOf_length]
  have hRc : ∀ c, R (colOf sig.re c) = (R (colOf s.re c)).map (· * downFactor) := fun c => by
    rw [hcol, hR.scale]
  clear_value sig
  unfold truePeakLevel
  rw [e1]
  simp only
  have e2 := copyWith_ok sig
    (ofCols (4 * sig.re.rows) sig.re.cols fun c => R (colOf sig.re c))
    (by show sig.re.cols ≤ 4 * sig.re.rows; omega)
    (fun h => by have := h.1; simp only [ofCols] at this; omega)
    (fun hc => ⟨by show 1 ≤ sig.re.cols; omega, fun r hr c hcc => by
      show |(R (colOf sig.re c)).getD r 0| ≤ 1
      have hr' : r < 4 * s.re.rows := by rw [← hrows]; exact hr
      rw [hRc, List.getD_eq_getElem _ _ (by rw [List.length_map, hRl]; exact hr'),
        List.getElem_map, abs_mul, abs_of_pos hd]
      have := hh (by rw [← hcon]; exact hc) c (by rw [← hcols]; exact hcc) _
        (List.getElem_mem (by rw [hRl]; exact hr'))
      rw [← down_inv] at this
      calc _ ≤ 1 / downFactor * downFactor := mul_le_mul_of_nonneg_right this hd.le
        _ = 1 := one_div_mul_cancel hd.ne', fun f hf => by cases hf⟩)
  rw [e2]
  simp only
  rw [if_neg (by omega)]
  have key : ∀ x : List ℝ, maxAbs (x.map (· * downFactor)) * (1 / downFactor) = maxAbs x := by
    intro x
    rw [maxAbs_scale, abs_of_pos hd]
    field_simp
  have hov : ∀ c, colOf (Input.reMat (ofCols (4 * sig.re.rows) sig.re.cols
      fun c => R (colOf sig.re c))) c = R (colOf sig.re c) := by
    intro c
    refine LFilter.ext_getD _ _ ?_ fun i hi0 => ?_
    · rw [colOf_length, hRc, List.length_map, hRl, ← hrows]
      rfl
    · rw [colOf_getD]
      by_cases hi : i < 4 * sig.re.rows
      · rw [if_pos (by exact hi)]
        rfl
      · rw [if_neg (by exact hi), List.getD_eq_default]
        rw [hRc, List.length_map, hRl, ← hrows]
        omega
  refine congrArg Except.ok (Prod.ext ?_ ?_)
  · show List.map _ (List.range sig.re.cols) = _
    rw [hcols]
    refine List.map_congr_left fun c _ => ?_
    rw [← hcols, hov, hRc, key]
  · show List.map _ (List.range sig.re.cols) = _
    rw [hcols]
    refine List.map_congr_left fun c _ => ?_
    rw [hcol, key]

theorem getD_map_range' {α : Type} (n c : ℕ) (f : ℕ → α) (d : α) (h : c < n) :
    ((List.range n).map f).getD c d = f c := by
  rw [List.getD_eq_getElem _ _ (by simpa using h)]
  simp

/-- **C114 (levels).** `true_peak_level` reports, for every channel, the level of its largest sample
and the level of the largest sample of the oversampled channel. -/
theorem C114_levels (R : List ℝ → List ℝ) (hR : Oversampler R) (s : State ℝ) (hs : Fits s)
    (hh : Headroom R s) :
    ∃ tp pk, truePeakLevel R s = .ok (tp, pk) ∧ tp.length = s.re.cols ∧ pk.length = s.re.cols ∧
      ∀ c < s.re.cols,
        (∀ P, IsPeak (colOf s.re c) P → tiny ≤ P → pk.getD c 0 = 20 * Real.logb 10 P) ∧
        (∀ P, IsPeak (colOf s.re c) P → P < tiny → pk.getD c 0 = 20 * Real.logb 10 tiny) ∧
        (∀ P, IsPeak (R (colOf s.re c)) P → tiny ≤ P → tp.getD c 0 = 20 * Real.logb 10 P) ∧
        (∀ P, IsPeak (R (colOf s.re c)) P → P < tiny → tp.getD c 0 = 20 * Real.logb 10 tiny) := by
  have hlow : ∀ x P, IsPeak x P → P < tiny → amplitudeDb P = 20 * Real.logb 10 tiny := by
    intro x P hP h
    have h0 : 0 ≤ P := by
      obtain ⟨_, v, _, hv⟩ := hP
      rw [← hv]
      exact abs_nonneg v
    unfold amplitudeDb
    rw [abs_of_nonneg h0, max_eq_right h.le]
  refine ⟨_, _, truePeak_ok R hR s hs hh, by simp, by simp, fun c hc => ⟨fun P hP h => ?_,
    fun P hP h => ?_, fun P hP h => ?_, fun P hP h => ?_⟩⟩
  · rw [getD_map_range' _ _ _ _ hc, ← isPeak_iff _ _ hP, amplitudeDb_eq _ h]
  · rw [getD_map_range' _ _ _ _ hc, ← isPeak_iff _ _ hP, hlow _ _ hP h]
  · rw [getD_map_range' _ _ _ _ hc, ← isPeak_iff _ _ hP, amplitudeDb_eq _ h]
  · rw [getD_map_range' _ _ _ _ hc, ← isPeak_iff _ _ hP, hlow _ _ hP h]

/-- An oversampler that keeps the given samples never reports a true peak below the peak. -/
theorem C114_true_peak_ge (R : List ℝ → List ℝ) (hR : Oversampler R)
    (hk : ∀ x, ∀ v ∈ x, v ∈ R x) (s : State ℝ) (hs : Fits s) (hh : Headroom R s) :
    ∃ tp pk, truePeakLevel R s = .ok (tp, pk) ∧ ∀ c < s.re.cols, pk.getD c 0 ≤ tp.getD c 0 := by
  refine ⟨_, _, truePeak_ok R hR s hs hh, fun c hc => ?_⟩
  rw [getD_map_range' _ _ _ _ hc, getD_map_range' _ _ _ _ hc]
  exact amplitudeDb_mono _ _ (maxAbs_nonneg _)
    (maxAbs_le _ _ (maxAbs_nonneg _) fun v hv => le_maxAbs _ _ (hk _ v hv))

/-- **C114 (ceiling).** A signal with constrained amplitude never reports more than 12.04 dBTP,
whatever the oversampling yields. -/
theorem C114_ceiling (R : List ℝ → List ℝ) (s : State ℝ) (hc : s.constrain = true)
    (tp pk : List ℝ) (h : truePeakLevel R s = .ok (tp, pk)) : ∀ v ∈ tp, v ≤ 12.04 := by
  unfold truePeakLevel at h
  cases h1 : setData s ⟨s.re.rows, s.re.cols, fun r c => s.re.val r c * downFactor, none⟩ with
  | error e => rw [h1] at h; cases h
  | ok sig =>
    rw [h1] at h
    simp only at h
    obtain ⟨_, _, _, hs1, _, _, _, _, _⟩ := C14_assignment s sig _ h1
    have hsc : sig.constrain = true := hs1.trans hc
    cases h2 : copyWith sig (ofCols (4 * sig.re.rows) sig.re.cols
        fun c => R (colOf sig.re c)) with
    | error e => rw [h2] at h; cases h
    | ok over =>
      rw [h2] at h
      simp only at h
      by_cases h0 : sig.re.rows = 0
      · rw [if_pos h0] at h; cases h
      · rw [if_neg h0] at h
        have h := Except.ok.inj h
        have ht := (congrArg Prod.fst h).symm
        simp only at ht
        subst ht
        obtain ⟨_, _, _, _, _, _, _, _, hb⟩ := C14_assignment _ over _ h2
        have hb := (hb hsc).1
        intro v hv
        obtain ⟨c, hcc, rfl⟩ := List.mem_map.mp hv
        have hcc := List.mem_range.mp hcc
        have hm : maxAbs (colOf over.re c) ≤ 1 := maxAbs_le _ _ zero_le_one fun w hw => by
          obtain ⟨r, hr, rfl⟩ := (mem_colOf _ _ _).mp hw
          exact hb r hr c hcc
        have hd : 0 < 1 / downFactor := by have := down_pos; positivity
        calc _ ≤ amplitudeDb (1 / downFactor) := amplitudeDb_mono _ _
              (mul_nonneg (maxAbs_nonneg _) hd.le)
              (by have := mul_le_mul_of_nonneg_right hm hd.le; linarith)
          _ = 12.04 := by
            rw [amplitudeDb_eq _ (tiny_le_one.trans one_le_down_inv), down_inv,
              Real.logb_rpow (by norm_num) (by norm_num)]
            norm_num

theorem rmsChannels_getD (s : State ℝ) (c : ℕ) (hc : c < s.re.cols) :
    (rmsChannels s.re).getD c 0 = channelStd s c := by
  unfold rmsChannels
  rw [getD_map_range' _ _ _ _ hc, stdOn_channel s c hc]

theorem channelStd_nonneg (s : State ℝ) (c : ℕ) : 0 ≤ channelStd s c := Real.sqrt_nonneg _

theorem channelRms_nonneg (s : State ℝ) (c : ℕ) : 0 ≤ channelRms s c := Real.sqrt_nonneg _

theorem rms_std_mean (s : State ℝ) (c : ℕ) (hc : c < s.re.cols) (hr : 1 ≤ s.re.rows) :
    channelRms s c ^ 2 = channelStd s c ^ 2 + channelMean s c ^ 2 := by
  have h := rms_sq (cells s.re c true)
    (Finset.card_pos.mp (by rw [cells_card]; omega)) s.re.val
  rwa [rmsOn_channel s c hc, stdOn_channel s c hc, meanOn_channel s c hc] at h

/-- **C114 (RMS).** `rms` reports the standard deviation of every channel: the RMS value of a
channel without offset, less than that for a channel with an offset. -/
theorem C114_rms (s : State ℝ) (hr : 1 ≤ s.re.rows) (c : ℕ) (hc : c < s.re.cols) :
    (rmsSignal s false).length = s.re.cols ∧
    (rmsSignal s false).getD c 0 = ((channelStd s c : ℝ) : WithBot ℝ) ∧
    (rmsSignal s true).getD c 0 = (if channelStd s c = 0 then ⊥
      else ((20 * Real.logb 10 (channelStd s c) : ℝ) : WithBot ℝ)) ∧
    (channelMean s c = 0 → channelStd s c = channelRms s c) ∧
    (channelMean s c ≠ 0 → channelStd s c < channelRms s c) := by
  have hg : ∀ b, (rmsSignal s b).getD c 0 = if b then logDb 20 (channelStd s c)
      else ((channelStd s c : ℝ) : WithBot ℝ) := by
    intro b
    unfold rmsSignal rmsChannels
    rw [List.map_map, getD_map_range' _ _ _ _ hc]
    simp only [Function.comp]
    rw [stdOn_channel s c hc]
  have hq := rms_std_mean s c hc hr
  have h1 := channelStd_nonneg s c
  have h2 := channelRms_nonneg s c
  refine ⟨by simp [rmsSignal, rmsChannels], by rw [hg]; simp, by rw [hg]; simp [logDb],
    fun hm => ?_, fun hm => ?_⟩
  · rw [hm] at hq
    exact (pow_left_inj₀ h1 h2 (by norm_num : 2 ≠ 0)).mp (by linarith)
  · have : 0 < channelMean s c ^ 2 := by positivity
    exact lt_of_pow_lt_pow_left₀ 2 h2 (by linarith)

/-- The levels of the bands are those of the signals. -/
theorem C114_rms_bands (bands : List (State ℝ)) (dbfs : Bool) :
    rmsBands bands dbfs = bands.map fun b => rmsSignal b dbfs := rfl

theorem std_le_peak (s : State ℝ) (c : ℕ) (hc : c < s.re.cols) (hr : 1 ≤ s.re.rows) (P : ℝ)
    (hP : IsPeak (colOf s.re c) P) : channelRms s c ≤ P := by
  have h0 : 0 ≤ P := by
    obtain ⟨_, v, _, hv⟩ := hP
    rw [← hv]
    exact abs_nonneg v
  have hn : (0 : ℝ) < s.re.rows := by exact_mod_cast hr
  unfold channelRms
  rw [Real.sqrt_le_left h0, div_le_iff₀ hn]
  calc ∑ r ∈ Finset.range s.re.rows, s.sample r c ^ 2
      ≤ ∑ _r ∈ Finset.range s.re.rows, P ^ 2 := Finset.sum_le_sum fun r hr' => by
        have hr' := Finset.mem_range.mp hr'
        have : s.sample r c = s.re.val r c := by simp [State.sample, hr', hc]
        rw [this, ← sq_abs]
        exact pow_le_pow_left₀ (abs_nonneg _) (hP.1 _ ((mem_colOf _ _ _).mpr ⟨r, hr', rfl⟩)) 2
    _ = P ^ 2 * s.re.rows := by rw [Finset.sum_const, Finset.card_range, nsmul_eq_mul, mul_comm]

theorem crest_getD (R : List ℝ → List ℝ) (s : State ℝ) (db t : Bool) (p : List ℝ)
    (hp : peaks R s t = .ok p) (hl : p.length = s.re.cols) :
    ∃ l, crestSignal R s db t = .ok l ∧ l.length = s.re.cols ∧ ∀ c < s.re.cols,
      l.getD c none = if db then (quotient (p.getD c 0) (channelStd s c)).map amplitudeDb
        else quotient (p.getD c 0) (channelStd s c) := by
  unfold crestSignal
  rw [hp]
  have hl2 : (rmsChannels s.re).length = s.re.cols := by simp [rmsChannels]
  refine ⟨_, rfl, by simp [hl, hl2], fun c hc => ?_⟩
  rw [List.getD_eq_getElem _ _ (by simp [hl, hl2, hc]), List.getElem_map, List.getElem_zipWith,
    ← rmsChannels_getD s c hc, List.getD_eq_getElem p _ (by omega),
    List.getD_eq_getElem (rmsChannels s.re) _ (by omega)]

theorem peaks_false (R : List ℝ → List ℝ) (s : State ℝ) (hr : 1 ≤ s.re.rows) :
    peaks R s false = .ok ((List.range s.re.cols).map fun (c : ℕ) => maxAbs (colOf s.re c)) := by
  unfold peaks
  rw [if_neg (by simp), if_neg (by omega)]

/-- **C114 (crest factor).** The crest factor of a channel is its largest sample over its standard
deviation.  It is at least 1 (0 dB) and, in dB, the peak level minus the level reported by `rms`.
No finite value is reported for a constant channel. -/
theorem C114_crest (R : List ℝ → List ℝ) (s : State ℝ) (hr : 1 ≤ s.re.rows) :
    ∃ l ld, crestSignal R s false false = .ok l ∧ crestSignal R s true false = .ok ld ∧
      l.length = s.re.cols ∧ ld.length = s.re.cols ∧
      ∀ c < s.re.cols, ∀ P, IsPeak (colOf s.re c) P →
        (channelStd s c = 0 → l.getD c none = none ∧ ld.getD c none = none) ∧
        (channelStd s c ≠ 0 → ∃ v, l.getD c none = some v ∧ v = P / channelStd s c ∧ 1 ≤ v ∧
          ld.getD c none = some (20 * Real.logb 10 v) ∧ 0 ≤ 20 * Real.logb 10 v ∧
          20 * Real.logb 10 v = 20 * Real.logb 10 P - 20 * Real.logb 10 (channelStd s c)) := by
  obtain ⟨l, h1, h2, h3⟩ := crest_getD R s false false _ (peaks_false R s hr) (by simp)
  obtain ⟨ld, g1, g2, g3⟩ := crest_getD R s true false _ (peaks_false R s hr) (by simp)
  refine ⟨l, ld, h1, g1, h2, g2, fun c hc P hP => ?_⟩
  rw [h3 c hc, g3 c hc, getD_map_range' _ _ _ _ hc, ← isPeak_iff _ _ hP]
  unfold quotient
  refine ⟨fun h => by simp [h], fun h => ?_⟩
  have hs := lt_of_le_of_ne (channelStd_nonneg s c) (Ne.symm h)
  have hle : channelStd s c ≤ P := by
    refine le_trans ?_ (std_le_peak s c hc hr P hP)
    have := rms_std_mean s c hc hr
    exact le_of_sq_le_sq (by nlinarith [sq_nonneg (channelMean s c)]) (channelRms_nonneg s c)
  have hv : 1 ≤ P / channelStd s c := (one_le_div hs).mpr hle
  refine ⟨P / channelStd s c, by simp [h], rfl, hv, ?_, ?_, ?_⟩
  · simp only [h, if_false, if_true, Option.map_some]
    rw [amplitudeDb_eq _ (tiny_le_one.trans hv)]
  · have := Real.logb_nonneg (b := 10) (by norm_num) hv
    positivity
  · rw [Real.logb_div (by linarith) h]
    ring

/-- For a channel without offset this is the ratio of peak and RMS value; for a channel with an
offset it is larger. -/
theorem C114_crest_offset (R : List ℝ → List ℝ) (s : State ℝ) (hr : 1 ≤ s.re.rows) (l : List (Option ℝ))
    (h : crestSignal R s false false = .ok l) (c : ℕ) (hc : c < s.re.cols) (P v : ℝ)
    (hP : IsPeak (colOf s.re c) P) (hv : l.getD c none = some v) :
    (channelMean s c = 0 → v = P / channelRms s c) ∧
    (channelMean s c ≠ 0 → P / channelRms s c < v) := by
  obtain ⟨l', _, h1, _, _, _, h2⟩ := C114_crest R s hr
  rw [h] at h1
  cases h1
  obtain ⟨h3, h4⟩ := h2 c hc P hP
  have hs : channelStd s c ≠ 0 := fun h0 => by rw [(h3 h0).1] at hv; cases hv
  obtain ⟨w, hw, hw2, hw3, _⟩ := h4 hs
  rw [hv] at hw
  cases hw
  have hs0 := lt_of_le_of_ne (channelStd_nonneg s c) (Ne.symm hs)
  obtain ⟨_, _, _, h5, h6⟩ := C114_rms s hr c hc
  refine ⟨fun hm => by rw [hw2, h5 hm], fun hm => ?_⟩
  rw [hw2]
  have hP0 : 0 < P := by
    by_contra h0
    have : P / channelStd s c ≤ 0 := div_nonpos_of_nonpos_of_nonneg (not_lt.mp h0) hs0.le
    linarith
  exact div_lt_div_of_pos_left hP0 hs0 (h6 hm)

/-- With the true peak, the oversampled channel takes the place of the channel. -/
theorem C114_crest_true_peak (R : List ℝ → List ℝ) (hR : Oversampler R) (s : State ℝ) (hs : Fits s)
    (hh : Headroom R s) :
    ∃ l, crestSignal R s false true = .ok l ∧ l.length = s.re.cols ∧
      ∀ c < s.re.cols, ∀ P, IsPeak (R (colOf s.re c)) P → tiny ≤ P → channelStd s c ≠ 0 →
        l.getD c none = some (P / channelStd s c) := by
  have hp : peaks R s true = .ok ((List.range s.re.cols).map fun (c : ℕ) =>
      fromDb (amplitudeDb (maxAbs (R (colOf s.re c)))) true) := by
    unfold peaks
    rw [if_pos rfl, truePeak_ok R hR s hs hh]
    show Except.ok (List.map _ (List.map _ _)) = _
    rw [List.map_map]
    rfl
  obtain ⟨l, h1, h2, h3⟩ := crest_getD R s false true _ hp (by simp)
  refine ⟨l, h1, h2, fun c hc P hP ht h0 => ?_⟩
  rw [h3 c hc, getD_map_range' _ _ _ _ hc, ← isPeak_iff _ _ hP, fromDb_amplitudeDb _ ht]
  simp [quotient, h0]

/-- **C114 (gain).** The crest factor does not depend on the gain of the channel. -/
theorem C114_crest_gain (R : List ℝ → List ℝ) (s t : State ℝ) (a : ℝ) (ha : a ≠ 0)
    (hr : 1 ≤ s.re.rows) (h1 : t.re.rows = s.re.rows) (h2 : t.re.cols = s.re.cols)
    (h3 : ∀ r c, t.re.val r c = a * s.re.val r c) (db : Bool) :
    crestSignal R t db false = crestSignal R s db false := by
  unfold crestSignal
  rw [peaks_false R s hr, peaks_false R t (by omega)]
  have hcol : ∀ c, colOf t.re c = (colOf s.re c).map (· * a) := by
    intro c
    simp only [colOf, h1, List.map_map, Function.comp_def]
    refine List.map_congr_left fun r _ => ?_
    rw [h3, mul_comm]
  have hz : List.zipWith quotient ((List.range t.re.cols).map fun (c : ℕ) => maxAbs (colOf t.re c))
      (rmsChannels t.re) =
      List.zipWith quotient ((List.range s.re.cols).map fun (c : ℕ) => maxAbs (colOf s.re c))
      (rmsChannels s.re) := by
    unfold rmsChannels
    rw [h2, List.zipWith_map, List.zipWith_map, List.zipWith_self, List.zipWith_self]
    refine List.map_congr_left fun c hc => ?_
    have hc := List.mem_range.mp hc
    have hstd : stdOn (cells t.re c true) t.re.val = |a| * stdOn (cells s.re c true) s.re.val := by
      have hm : meanOn (cells t.re c true) t.re.val = a * meanOn (cells s.re c true) s.re.val := by
        unfold meanOn
        rw [cells_sum, cells_sum, cells_card, cells_card, h1, ← mul_div_assoc, Finset.mul_sum]
        simp only [h3]
      unfold stdOn
      rw [cells_card, cells_card, h1, ← Real.sqrt_sq_eq_abs, ← Real.sqrt_mul (sq_nonneg a), hm,
        cells_sum t.re c fun r c' => (t.re.val r c' - a * meanOn (cells s.re c true) s.re.val) ^ 2,
        cells_sum s.re c fun r c' => (s.re.val r c' - meanOn (cells s.re c true) s.re.val) ^ 2, h1,
        ← mul_div_assoc, Finset.mul_sum]
      congr 2
      refine Finset.sum_congr rfl fun r _ => ?_
      rw [h3]
      ring
    have ha' : |a| ≠ 0 := abs_ne_zero.mpr ha
    rw [hstd, hcol, maxAbs_scale]
    unfold quotient
    by_cases h0 : stdOn (cells s.re c true) s.re.val = 0
    · rw [h0, mul_zero, if_pos rfl, if_pos rfl]
    · rw [if_neg h0, if_neg (mul_ne_zero ha' h0)]
      congr 1
      field_simp
  simp only [hz]

/-- **C114 (bands).** Without decibels the rows are the crest factors of the bands. -/
theorem C114_bands (R : List ℝ → List ℝ) (bands : List (State ℝ)) (t : Bool)
    (f : State ℝ → List (Option ℝ)) (h : ∀ b ∈ bands, crestSignal R b false t = .ok (f b)) :
    crestBands R bands false t = .ok (bands.map f) := by
  unfold crestBands
  rw [Framing.mapM_ok _ f bands h]
  simp

/-- **C114 (bands in decibels), negation.** In decibels the conversion is applied twice: a band with
crest factor `y` in dB is reported with `20 log10 |y|`. -/
theorem C114_bands_db (R : List ℝ → List ℝ) (bands : List (State ℝ)) (t : Bool)
    (f : State ℝ → List (Option ℝ)) (h : ∀ b ∈ bands, crestSignal R b true t = .ok (f b)) :
    crestBands R bands true t =
      .ok (bands.map fun b => (f b).map fun v => v.map fun y => 20 * Real.logb 10 (max |y| tiny)) := by
  unfold crestBands
  rw [Framing.mapM_ok _ f bands h]
  simp only [List.map_map, if_true]
  rfl

/-- The alternating signal `1, -1`. -/
def square : State ℝ := ⟨⟨2, 1, fun r _ => if r = 0 then 1 else -1⟩, none, true, 1⟩

theorem square_fits : Fits square :=
  ⟨by decide, by decide, by decide, fun _ r _ c _ => by
    simp only [square]; split_ifs <;> simp⟩

theorem square_std : channelStd square 0 = 1 := by
  have h0 : square.sample 0 0 = 1 := by simp [State.sample, square]
  have h1 : square.sample 1 0 = -1 := by simp [State.sample, square]
  have hm : channelMean square 0 = 0 := by
    unfold channelMean
    show (∑ r ∈ Finset.range 2, square.sample r 0) / ((2 : ℕ) : ℝ) = 0
    rw [Finset.sum_range_succ, Finset.sum_range_one, h0, h1]
    norm_num
  unfold channelStd
  rw [hm]
  show Real.sqrt ((∑ r ∈ Finset.range 2, (square.sample r 0 - 0) ^ 2) / ((2 : ℕ) : ℝ)) = 1
  rw [Finset.sum_range_succ, Finset.sum_range_one, h0, h1]
  norm_num

theorem square_peak : IsPeak (colOf square.re 0) 1 := by
  have : colOf square.re 0 = [1, -1] := by simp [colOf, square, List.range_succ]
  rw [this]
  refine ⟨fun v hv => ?_, 1, by simp, by simp⟩
  simp only [List.mem_cons, List.not_mem_nil, or_false] at hv
  rcases hv with rfl | rfl <;> simp

theorem square_crest (R : List ℝ → List ℝ) : crestSignal R square true false = .ok [some 0] := by
  obtain ⟨_, ld, _, h1, _, h2, h3⟩ := C114_crest R square (by decide)
  obtain ⟨v, _, hv, _, hd, _⟩ := (h3 0 (by decide) 1 square_peak).2 (by rw [square_std]; norm_num)
  rw [square_std, div_one] at hv
  rw [hv, Real.logb_one, mul_zero] at hd
  rw [h1]
  have h2 : ld.length = 1 := h2
  match ld, h2 with
  | [a], _ => rw [show a = some 0 from hd]

/-- A square wave has a crest factor of 0 dB; as a band it is reported with less than -6000 dB. -/
theorem C114_bands_db_wrong (R : List ℝ → List ℝ) :
    crestSignal R square true false = .ok [some 0] ∧
    ∃ y, crestBands R [square] true false = .ok [[some y]] ∧ y < -6000 := by
  refine ⟨square_crest R, 20 * Real.logb 10 (max |0| tiny), ?_, ?_⟩
  · have := C114_bands_db R [square] false (fun _ => [some 0])
      (by intro b hb; rw [List.mem_singleton.mp hb]; exact square_crest R)
    simpa using this
  · rw [abs_zero, max_eq_right tiny_pos.le]
    have h2 : (10 : ℝ) ^ (3 : ℝ) < 2 ^ (10 : ℝ) := by norm_num
    have h3 : Real.logb 10 ((10 : ℝ) ^ (3 : ℝ)) < Real.logb 10 ((2 : ℝ) ^ (10 : ℝ)) :=
      Real.logb_lt_logb (by norm_num) (by norm_num) h2
    rw [Real.logb_rpow (by norm_num) (by norm_num), Real.logb_rpow_eq_mul_logb_of_pos (by norm_num)]
      at h3
    have h4 : Real.logb 10 tiny = -1022 * Real.logb 10 2 := by
      unfold tiny
      rw [← Real.rpow_intCast, Real.logb_rpow_eq_mul_logb_of_pos (by norm_num)]
      norm_num
    rw [h4]
    nlinarith

/-- No samples, no level. -/
theorem C114_empty (R : List ℝ → List ℝ) (s : State ℝ) (h : s.re.rows = 0) (db : Bool) :
    crestSignal R s db false = .error .valueError := by
  unfold crestSignal peaks
  rw [if_neg (by simp), if_pos h]

example : Fits square ∧ Oversampler hold ∧ Headroom hold square := by
  refine ⟨square_fits, hold_oversampler, fun _ c hc v hv => ?_⟩
  have hc : c = 0 := by have : c < 1 := hc; omega
  subst hc
  have h : colOf square.re 0 = [1, -1] := by simp [colOf, square, List.range_succ]
  rw [h] at hv
  refine le_trans ?_ (Real.one_le_rpow (by norm_num : (1 : ℝ) ≤ 10)
    (by norm_num : (0 : ℝ) ≤ 12.04 / 20))
  simp only [hold, List.flatMap_cons, List.flatMap_nil, List.mem_append, List.mem_cons,
    List.not_mem_nil, or_false] at hv
  rcases hv with (h | h | h | h) | (h | h | h | h) <;> rw [h] <;> simp

end Verif.Level
