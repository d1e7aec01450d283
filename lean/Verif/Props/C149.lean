import Verif.Model.BankSpectrum
import Verif.Lemmas.Framing
import Verif.Props.C33
import Verif.Props.C36
import Verif.Props.C126

/-!
# C149: spectra of filters, of filter banks and of the bands of a signal
-/

namespace Verif.Props.C149

open Verif.BankSpectrum Verif.Bank Verif.SpecConv Verif.Spectrum Verif.SignalData

/-- Frequency vectors that a spectrum accepts. -/
structure Valid (f : List ℝ) : Prop where
  ne : f ≠ []
  nonneg : ∀ x ∈ f, 0 ≤ x
  ascending : Ascending f

/-- The response of a filter at a frequency in Hz: `B(e^(-iΩ)) / A(e^(-iΩ))` with
`Ω = 2 π f / fs`. -/
noncomputable def response (fs : ℕ) (F : Filt ℝ) (f : ℝ) : ℂ :=
  F.tf Complex.ofReal (Complex.exp (-(2 * Real.pi * f / fs : ℝ) * Complex.I))

/-- What is stored of a complex number. -/
noncomputable def stored (cpx : Bool) (z : ℂ) : ℂ := if cpx then z else ((‖z‖ : ℝ) : ℂ)

/-- Standard deviation of the first `n` numbers of a sequence. -/
noncomputable def deviation (n : ℕ) (g : ℕ → ℝ) : ℝ :=
  Real.sqrt ((∑ k ∈ Finset.range n, (g k - (∑ j ∈ Finset.range n, g j) / n) ^ 2) / n)

theorem keep_val (cpx : Bool) (A : Mat ℂ) (r c : ℕ) : (keep cpx A).val r c = stored cpx (A.val r c) := by
  cases cpx <;> rfl

theorem keep_rows (cpx : Bool) (A : Mat ℂ) : (keep cpx A).rows = A.rows := by cases cpx <;> rfl

theorem keep_cols (cpx : Bool) (A : Mat ℂ) : (keep cpx A).cols = A.cols := by cases cpx <;> rfl

theorem stored_nonneg (cpx : Bool) (h : (!cpx) = true) (z : ℂ) : 0 ≤ (stored cpx z).re := by
  cases cpx with
  | true => cases h
  | false =>
    show 0 ≤ ((‖z‖ : ℝ) : ℂ).re
    rw [Complex.ofReal_re]
    exact norm_nonneg z

/-- Data of one row becomes one column. -/
theorem construct_row (f : List ℝ) (A : Mat ℂ) (m : Bool) (hf : Valid f) (hr : A.rows = 1)
    (hc : A.cols = f.length) (hm : m = true → ∀ r c, 0 ≤ (A.val r c).re) :
    ∃ t, SpecConv.construct f A m = .ok t ∧ t.freqs = f ∧ t.isMagnitude = m ∧
      t.data.rows = f.length ∧ t.data.cols = 1 ∧ ∀ k < f.length, t.data.val k 0 = A.val 0 k := by
  have hl : 0 < f.length := List.length_pos_of_ne_nil hf.ne
  have hd : SpecConv.construct f A m = .ok ⟨f, upright A, m, .power, .linear, .zeroPad⟩ ∧
      (upright A).rows = f.length ∧ (upright A).cols = 1 ∧
      ∀ k < f.length, (upright A).val k 0 = A.val 0 k := by
    have hu : (upright A).rows = f.length ∧ (upright A).cols = 1 ∧
        (∀ k < f.length, (upright A).val k 0 = A.val 0 k) ∧
        (m = true → ∀ r c, 0 ≤ ((upright A).val r c).re) := by
      unfold upright
      by_cases h : A.rows < A.cols
      · rw [if_pos h]
        exact ⟨hc, hr, fun k _ => rfl, fun h r c => hm h c r⟩
      · rw [if_neg h]
        have h1 : f.length = 1 := by omega
        refine ⟨by omega, by omega, fun k hk => ?_, hm⟩
        have : k = 0 := by omega
        rw [this]
    refine ⟨?_, hu.1, hu.2.1, hu.2.2.1⟩
    unfold SpecConv.construct
    rw [if_neg (not_not.2 ⟨hf.nonneg, C126.steps_of_ascending hf.ascending⟩), if_neg (not_not.2 hu.1),
      if_neg fun h => h.2 fun r _ c _ => hu.2.2.2 h.1 r c]
  exact ⟨_, hd.1, rfl, rfl, hd.2.1, hd.2.2.1, hd.2.2.2⟩

/-- More columns than frequencies are refused, whatever the frequencies are. -/
theorem construct_wide (f : List ℝ) (A : Mat ℂ) (m : Bool) (hr : A.rows = f.length)
    (hc : f.length < A.cols) : SpecConv.construct f A m = .error .assertionError := by
  have hu : (upright A).rows = A.cols := by
    unfold upright
    rw [if_pos (by omega)]
    rfl
  unfold SpecConv.construct
  by_cases h : ¬ ((∀ x ∈ f, 0 ≤ x) ∧ ∀ i < f.length - 1, f.getD i 0 < f.getD (i + 1) 0)
  · rw [if_pos h]
  · rw [if_neg h, if_pos (by omega)]

/-- Frequencies that are negative or not ascending are refused. -/
theorem construct_bad (f : List ℝ) (A : Mat ℂ) (m : Bool)
    (h : (∃ x ∈ f, x < 0) ∨ ∃ i, i + 1 < f.length ∧ f.getD (i + 1) 0 ≤ f.getD i 0) :
    SpecConv.construct f A m = .error .assertionError := by
  unfold SpecConv.construct
  rw [if_pos]
  rintro ⟨h1, h2⟩
  rcases h with ⟨x, hx, hn⟩ | ⟨i, hi, hn⟩
  · exact absurd (h1 x hx) (not_le.2 hn)
  · exact absurd (h2 i (by omega)) (not_lt.2 hn)

/-- The spectrum of a filter has one channel with the response of the filter at each of the given
frequencies: as it is, or its magnitude. -/
theorem C149_filter (f : List ℝ) (hf : Valid f) (fs : ℕ) (F : Filt ℝ) (cpx : Bool) :
    ∃ t, fromFilter f fs F cpx = .ok t ∧ t.freqs = f ∧ t.isMagnitude = !cpx ∧
      t.data.rows = f.length ∧ t.data.cols = 1 ∧
      ∀ k < f.length, t.data.val k 0 = stored cpx (response fs F (f.getD k 0)) := by
  obtain ⟨t, ht, h1, h2, h3, h4, h5⟩ := construct_row f
    (keep cpx ⟨1, f.length, fun _ k => F.tf Complex.ofReal (point fs (f.getD k 0))⟩) (!cpx) hf
    (keep_rows _ _) (keep_cols _ _) fun h r c => by rw [keep_val]; exact stored_nonneg cpx h _
  exact ⟨t, ht, h1, h2, h3, h4, fun k hk => by rw [h5 k hk, keep_val]; rfl⟩

/-- Negative frequencies and frequencies that do not ascend are refused for filters and banks. -/
theorem C149_frequencies (f : List ℝ)
    (h : (∃ x ∈ f, x < 0) ∨ ∃ i, i + 1 < f.length ∧ f.getD (i + 1) 0 ≤ f.getD i 0) (fs : ℕ)
    (F : Filt ℝ) (Fs : List (Filt ℝ)) (mode : Mode) (cpx : Bool) :
    fromFilter f fs F cpx = .error .assertionError ∧
      fromFilterbank f fs Fs mode cpx = .error .assertionError :=
  ⟨construct_bad f _ _ h, construct_bad f _ _ h⟩

/-- In parallel mode a bank of at most as many filters as frequencies gives one channel for each
filter, with the response of that filter. -/
theorem C149_parallel_partial (f : List ℝ) (hf : Valid f) (fs : ℕ) (Fs : List (Filt ℝ)) (cpx : Bool)
    (hfew : Fs.length ≤ f.length) :
    ∃ t, fromFilterbank f fs Fs .parallel cpx = .ok t ∧ t.freqs = f ∧ t.isMagnitude = !cpx ∧
      t.data.rows = f.length ∧ t.data.cols = Fs.length ∧
      ∀ k < f.length, ∀ j (hj : j < Fs.length),
        t.data.val k j = stored cpx (response fs Fs[j] (f.getD k 0)) := by
  refine ⟨_, C126.construct_ok f (keep cpx (bankTf f fs Fs .parallel)) (!cpx) hf.nonneg hf.ascending
    (keep_rows _ _) (by rw [keep_rows, keep_cols]; exact hfew) fun h r _ c _ => by
      rw [keep_val]; exact stored_nonneg cpx h _, rfl, rfl, keep_rows _ _, keep_cols _ _,
    fun k _ j hj => ?_⟩
  rw [keep_val]
  congr 1
  show (tfParallel Complex.ofReal (point fs (f.getD k 0)) Fs).getD j 0 = _
  unfold tfParallel
  rw [List.getD_eq_getElem _ _ (by simpa using hj), List.getElem_map]
  rfl

/-- A bank with more filters than frequencies is refused in parallel mode. -/
theorem C149_parallel_wrong (f : List ℝ) (fs : ℕ) (Fs : List (Filt ℝ)) (cpx : Bool)
    (hmany : f.length < Fs.length) :
    fromFilterbank f fs Fs .parallel cpx = .error .assertionError :=
  construct_wide f _ _ (keep_rows _ _) (by rw [keep_cols]; exact hmany)

theorem foldl_mul (C : Type) [Field C] (g : Filt ℝ → C) : ∀ (Fs : List (Filt ℝ)) (h : C),
    Fs.foldl (fun h F => h * g F) h = h * (Fs.map g).prod
  | [], h => by simp
  | F :: Fs, h => by
    rw [List.foldl_cons, foldl_mul C g Fs, List.map_cons, List.prod_cons, mul_assoc]

theorem foldl_add (C : Type) [Field C] (g : Filt ℝ → C) : ∀ (Fs : List (Filt ℝ)) (h : C),
    Fs.foldl (fun h F => h + g F) h = h + (Fs.map g).sum
  | [], h => by simp
  | F :: Fs, h => by
    rw [List.foldl_cons, foldl_add C g Fs, List.map_cons, List.sum_cons, add_assoc]

/-- In sequential mode there is one channel with the product of the responses, for any number of
filters. -/
theorem C149_sequential (f : List ℝ) (hf : Valid f) (fs : ℕ) (Fs : List (Filt ℝ)) (cpx : Bool) :
    ∃ t, fromFilterbank f fs Fs .sequential cpx = .ok t ∧ t.freqs = f ∧ t.isMagnitude = !cpx ∧
      t.data.rows = f.length ∧ t.data.cols = 1 ∧ ∀ k < f.length,
        t.data.val k 0 = stored cpx (Fs.map fun F => response fs F (f.getD k 0)).prod := by
  obtain ⟨t, ht, h1, h2, h3, h4, h5⟩ := construct_row f
    (keep cpx (bankTf f fs Fs .sequential)) (!cpx) hf
    (keep_rows _ _) (keep_cols _ _) fun h r c => by rw [keep_val]; exact stored_nonneg cpx h _
  refine ⟨t, ht, h1, h2, h3, h4, fun k hk => ?_⟩
  rw [h5 k hk, keep_val]
  congr 1
  show tfSequential Complex.ofReal (point fs (f.getD k 0)) Fs = _
  unfold tfSequential
  rw [foldl_mul, one_mul]
  rfl

/-- In summed mode the one channel holds the sum of the responses **plus one**. -/
theorem C149_summed_wrong (f : List ℝ) (hf : Valid f) (fs : ℕ) (Fs : List (Filt ℝ)) :
    ∃ t, fromFilterbank f fs Fs .summed true = .ok t ∧ t.freqs = f ∧
      t.data.rows = f.length ∧ t.data.cols = 1 ∧ ∀ k < f.length,
        t.data.val k 0 = 1 + (Fs.map fun F => response fs F (f.getD k 0)).sum ∧
        t.data.val k 0 ≠ (Fs.map fun F => response fs F (f.getD k 0)).sum := by
  obtain ⟨t, ht, h1, h2, h3, h4, h5⟩ := construct_row f
    (keep true (bankTf f fs Fs .summed)) (!true) hf
    (keep_rows _ _) (keep_cols _ _) fun h r c => by rw [keep_val]; exact stored_nonneg true h _
  refine ⟨t, ht, h1, h3, h4, fun k hk => ?_⟩
  have h : t.data.val k 0 = 1 + (Fs.map fun F => response fs F (f.getD k 0)).sum := by
    rw [h5 k hk, keep_val]
    show tfSummed Complex.ofReal (point fs (f.getD k 0)) Fs = _
    unfold tfSummed
    rw [foldl_add]
    rfl
  refine ⟨h, ?_⟩
  rw [h]
  exact fun h' => one_ne_zero (add_eq_right.1 h')

/-! ## Bands of a signal -/

/-- Exactly one of the two bandwidths must be given and it must be positive. -/
theorem C149_bandwidth (design : ℝ → ℝ → Except Err (Filt ℝ)) (s : State ℝ) (f : List ℝ) (a b : ℝ) :
    viaFilterbank design s f none none = .error .assertionError ∧
    viaFilterbank design s f (some a) (some b) = .error .assertionError ∧
    (a ≤ 0 → viaFilterbank design s f (some a) none = .error .assertionError) ∧
    (b ≤ 0 → viaFilterbank design s f none (some b) = .error .assertionError) := by
  refine ⟨rfl, rfl, fun h => ?_, fun h => ?_⟩
  · unfold viaFilterbank edges
    dsimp only
    rw [if_pos (not_lt.2 h)]
  · unfold viaFilterbank edges
    dsimp only
    rw [if_pos (not_lt.2 h)]

/-- The band of a frequency for a bandwidth in Hz is as wide as asked for and has the frequency in
its middle; for a bandwidth in octaves the same holds on the logarithmic axis. -/
theorem C149_bands (f : List ℝ) (b : ℝ) (hb : 0 < b) :
    (∃ bs, edges f none (some b) = .ok bs ∧ bs.length = f.length ∧
      ∀ k (hk : k < f.length) (hk' : k < bs.length),
        bs[k].2 - bs[k].1 = b ∧ (bs[k].1 + bs[k].2) / 2 = f[k]) ∧
    ∃ bs, edges f (some b) none = .ok bs ∧ bs.length = f.length ∧
      ∀ k (hk : k < f.length) (hk' : k < bs.length),
        bs[k].2 = bs[k].1 * 2 ^ b ∧ bs[k].1 * bs[k].2 = f[k] ^ 2 := by
  constructor
  · refine ⟨f.map fun x => (x - b / 2, x + b / 2), ?_, by simp, fun k hk hk' => ?_⟩
    · unfold edges
      dsimp only
      rw [if_neg (not_not.2 hb)]
    · rw [List.getElem_map]
      dsimp only
      constructor <;> ring
  · refine ⟨f.map fun x => (x / 2 ^ (b / 2), x * 2 ^ (b / 2)), ?_, by simp, fun k hk hk' => ?_⟩
    · unfold edges
      dsimp only
      rw [if_neg (not_not.2 hb)]
    · rw [List.getElem_map]
      dsimp only
      have hp : (0 : ℝ) < 2 ^ (b / 2) := Real.rpow_pos_of_pos (by norm_num) _
      have h2 : (2 : ℝ) ^ b = 2 ^ (b / 2) * 2 ^ (b / 2) := by
        rw [← Real.rpow_add (by norm_num)]
        congr 1
        ring
      rw [h2]
      constructor <;> field_simp

/-- Channel `c` of the signal filtered with `F`. -/
noncomputable def filtered (F : Filt ℝ) (s : State ℝ) (c k : ℕ) : ℝ :=
  (F.channel (colOf s.re c)).getD k 0

/-- Scaling of a sequence. -/
theorem deviation_scale (n : ℕ) (g : ℕ → ℝ) (σ : ℝ) (hσ : 0 ≤ σ) :
    deviation n (fun k => σ * g k) = σ * deviation n g := by
  unfold deviation
  rw [← Finset.mul_sum]
  have h : ∀ k, (σ * g k - σ * (∑ j ∈ Finset.range n, g j) / n) ^ 2 =
      σ ^ 2 * (g k - (∑ j ∈ Finset.range n, g j) / n) ^ 2 := fun k => by ring
  simp only [h]
  rw [← Finset.mul_sum, mul_div_assoc, Real.sqrt_mul (sq_nonneg σ), Real.sqrt_sq hσ]

/-- The filtered signal before it is stored. -/
noncomputable def outInput (F : Filt ℝ) (s : State ℝ) : Input ℝ :=
  ofCols s.re.rows s.re.cols fun c => F.channel (colOf s.re c)

/-- Factor that a filtered signal is multiplied with when it is stored. -/
noncomputable def factor (F : Filt ℝ) (s : State ℝ) : ℝ :=
  open Classical in
  if s.constrain = true ∧ 1 < peak (outInput F s) then 1 / peak (outInput F s) else 1

theorem factor_nonneg (F : Filt ℝ) (s : State ℝ) : 0 ≤ factor F s := by
  unfold factor
  split_ifs with h
  · exact (one_div_pos.2 (lt_trans one_pos h.2)).le
  · exact one_pos.le

theorem band_rms (F : Filt ℝ) (s : State ℝ) (hs : Shaped s) :
    ∃ t, filterSignal F s = .ok t ∧ (Calibration.rmsChannels t.re).length = s.re.cols ∧
      ∀ c < s.re.cols, (Calibration.rmsChannels t.re).getD c 0 =
        factor F s * deviation s.re.rows (filtered F s c) := by
  obtain ⟨t, ht, -, hshape, hscale, hval, -⟩ := setData_scaled
    ⟨⟨0, 0, fun _ _ => 0⟩, none, s.constrain, 1⟩ (outInput F s) hs.tall
    (fun h => hs.more h.1) hs.one
  have hsc : t.scale = factor F s := by
    rw [hscale]
    unfold factor
    congr
  have hr : t.re.rows = s.re.rows := hshape.1
  have hcs : t.re.cols = s.re.cols := hshape.2
  refine ⟨t, ht, by simp [Calibration.rmsChannels, hcs], fun c hc => ?_⟩
  unfold Calibration.rmsChannels
  rw [hcs, LFilter.getD_map_range, if_pos hc, Calibration.stdOn_channel t c (by omega),
    ← deviation_scale _ _ _ (factor_nonneg F s)]
  have hv : ∀ r ∈ Finset.range s.re.rows, t.sample r c = factor F s * filtered F s c r :=
    fun r hr => by
      rw [hval r (Finset.mem_range.1 hr) c hc, hsc]
      rfl
  unfold Calibration.channelStd Calibration.channelMean deviation
  rw [hr, Finset.sum_congr rfl hv]
  congr 2
  exact Finset.sum_congr rfl fun r hr => by rw [hv r hr]

theorem parallel_rms (Fs : List (Filt ℝ)) (s : State ℝ) (hs : Shaped s) :
    ∃ ts, parallel Fs s = .ok ts ∧ ts.length = Fs.length ∧
      ∀ r (hr : r < Fs.length), ∀ c < s.re.cols,
        (((ts.map fun b => Calibration.rmsChannels b.re).getD r []).getD c 0) =
          factor Fs[r] s * deviation s.re.rows (filtered Fs[r] s c) := by
  induction Fs with
  | nil => exact ⟨[], rfl, rfl, fun r hr => absurd hr (by simp)⟩
  | cons F Fs ih =>
    obtain ⟨t, ht, -, hval⟩ := band_rms F s hs
    obtain ⟨ts, hts, hl, hall⟩ := ih
    refine ⟨t :: ts, ?_, by simp [hl], fun r hr c hc => ?_⟩
    · unfold parallel at hts ⊢
      rw [List.mapM_cons, ht, hts]
      rfl
    · cases r with
      | zero => exact hval c hc
      | succ r => exact hall r (by simpa using hr) c hc

theorem parallel_few (Fs : List (Filt ℝ)) (s : State ℝ) (hs : Shaped s) :
    ∃ ts, parallel Fs s = .ok ts ∧ ts.length = Fs.length := by
  obtain ⟨ts, h, hl, -⟩ := parallel_rms Fs s hs
  exact ⟨ts, h, hl⟩

/-- The value at frequency `k` of channel `c`: with `F` the band-pass designed for the band of
that frequency and of no other, it is the standard deviation of the channel filtered with `F`,
times the factor by which the storage of the filtered signal scaled it down. -/
theorem C149_values (design : ℝ → ℝ → Except Err (Filt ℝ)) (s : State ℝ) (hs : Shaped s)
    (f : List ℝ) (hf : Valid f) (octaves hz : Option ℝ) (bs : List (ℝ × ℝ))
    (hbs : edges f octaves hz = .ok bs) (G : ℝ × ℝ → Filt ℝ)
    (hG : ∀ p ∈ bs, design p.1 p.2 = .ok (G p)) (hlen : bs.length = f.length)
    (hfew : s.re.cols ≤ f.length) :
    ∃ t, viaFilterbank design s f octaves hz = .ok t ∧ t.freqs = f ∧ t.isMagnitude = true ∧
      t.data.rows = f.length ∧ t.data.cols = s.re.cols ∧
      ∀ k (hk : k < bs.length), ∀ c < s.re.cols, t.data.val k c =
        ((factor (G bs[k]) s * deviation s.re.rows (filtered (G bs[k]) s c) : ℝ) : ℂ) := by
  obtain ⟨ts, hts, hl, hall⟩ := parallel_rms (bs.map G) s hs
  have hl' : ts.length = f.length := by rw [hl, List.length_map, hlen]
  have hval : ∀ k (hk : k < bs.length), ∀ c < s.re.cols, (rmsTable ts s.re.cols).val k c =
      ((factor (G bs[k]) s * deviation s.re.rows (filtered (G bs[k]) s c) : ℝ) : ℂ) := by
    intro k hk c hc
    have h := hall k (by simpa using hk) c hc
    rw [List.getElem_map] at h
    exact congrArg Complex.ofReal h
  refine ⟨⟨f, rmsTable ts s.re.cols, true, .power, .linear, .zeroPad⟩, ?_, rfl, rfl, hl', rfl, hval⟩
  unfold viaFilterbank
  rw [hbs]
  dsimp only
  rw [Framing.mapM_ok _ G bs hG]
  dsimp only
  rw [hts]
  refine C126.construct_ok f _ true hf.nonneg hf.ascending hl'
    (by show s.re.cols ≤ ts.length; omega) fun _ r hr c hc => ?_
  rw [hval r (by rw [hlen, ← hl']; exact hr) c hc, Complex.ofReal_re]
  exact mul_nonneg (factor_nonneg _ _) (Real.sqrt_nonneg _)

/-- Without amplitude constraint the value is the standard deviation of the filtered channel. -/
theorem C149_values_unconstrained_partial (design : ℝ → ℝ → Except Err (Filt ℝ)) (s : State ℝ)
    (hs : Shaped s) (hcon : s.constrain = false)
    (f : List ℝ) (hf : Valid f) (octaves hz : Option ℝ) (bs : List (ℝ × ℝ))
    (hbs : edges f octaves hz = .ok bs) (G : ℝ × ℝ → Filt ℝ)
    (hG : ∀ p ∈ bs, design p.1 p.2 = .ok (G p)) (hlen : bs.length = f.length)
    (hfew : s.re.cols ≤ f.length) :
    ∃ t, viaFilterbank design s f octaves hz = .ok t ∧
      ∀ k (hk : k < bs.length), ∀ c < s.re.cols, t.data.val k c =
        ((deviation s.re.rows (filtered (G bs[k]) s c) : ℝ) : ℂ) := by
  obtain ⟨t, ht, -, -, -, -, h⟩ := C149_values design s hs f hf octaves hz bs hbs G hG hlen hfew
  refine ⟨t, ht, fun k hk c hc => ?_⟩
  rw [h k hk c hc]
  unfold factor
  rw [if_neg (fun h => by rw [hcon] at h; exact absurd h.1 (by simp)), one_mul]

/-- With the amplitude constraint (the default of signals) every band in which some channel of the
filtered signal exceeds one is scaled down in all channels, so that its value is too small; the
other bands are not. -/
theorem C149_constrained_wrong (design : ℝ → ℝ → Except Err (Filt ℝ)) (s : State ℝ)
    (hs : Shaped s) (hcon : s.constrain = true)
    (f : List ℝ) (hf : Valid f) (octaves hz : Option ℝ) (bs : List (ℝ × ℝ))
    (hbs : edges f octaves hz = .ok bs) (G : ℝ × ℝ → Filt ℝ)
    (hG : ∀ p ∈ bs, design p.1 p.2 = .ok (G p)) (hlen : bs.length = f.length)
    (hfew : s.re.cols ≤ f.length) (k : ℕ) (hk : k < bs.length)
    (r d : ℕ) (hr : r < s.re.rows) (hd : d < s.re.cols) (hover : 1 < |filtered (G bs[k]) s d r|) :
    ∃ t, viaFilterbank design s f octaves hz = .ok t ∧
      ∀ c < s.re.cols, 0 < deviation s.re.rows (filtered (G bs[k]) s c) →
        (t.data.val k c).re < deviation s.re.rows (filtered (G bs[k]) s c) := by
  obtain ⟨t, ht, -, -, -, -, h⟩ := C149_values design s hs f hf octaves hz bs hbs G hG hlen hfew
  refine ⟨t, ht, fun c hc hpos => ?_⟩
  rw [h k hk c hc, Complex.ofReal_re]
  have hp : 1 < peak (outInput (G bs[k]) s) := by
    by_contra hle
    have hle := not_lt.1 hle
    refine absurd hover (not_lt.2 (le_trans ?_ hle))
    show _ ≤ maxAbs (outInput (G bs[k]) s).reMat
    unfold maxAbs
    rw [Finset.le_fold_max]
    exact Or.inr ⟨(r, d), by simp [outInput, ofCols, Input.reMat, hr, hd], le_refl _⟩
  have hfac : factor (G bs[k]) s = 1 / peak (outInput (G bs[k]) s) := by
    unfold factor
    rw [if_pos ⟨hcon, hp⟩]
  rw [hfac, one_div_mul_eq_div, div_lt_iff₀ (lt_trans one_pos hp)]
  nlinarith

/-- A signal with more channels than frequencies asked for is refused. -/
theorem C149_channels_wrong (design : ℝ → ℝ → Except Err (Filt ℝ)) (s : State ℝ) (hs : Shaped s)
    (f : List ℝ) (octaves hz : Option ℝ) (bs : List (ℝ × ℝ))
    (hbs : edges f octaves hz = .ok bs) (G : ℝ × ℝ → Filt ℝ)
    (hG : ∀ p ∈ bs, design p.1 p.2 = .ok (G p)) (hlen : bs.length = f.length)
    (hmany : f.length < s.re.cols) :
    viaFilterbank design s f octaves hz = .error .assertionError := by
  obtain ⟨ts, hts, hl⟩ := parallel_few (bs.map G) s hs
  unfold viaFilterbank
  rw [hbs]
  dsimp only
  rw [Framing.mapM_ok _ G bs hG]
  dsimp only
  rw [hts]
  refine construct_wide f _ true ?_ hmany
  show ts.length = f.length
  rw [hl, List.length_map, hlen]

/-- A band that the design refuses (for example one with an edge below zero or above half the
sampling rate) makes the whole call fail. -/
theorem C149_design (design : ℝ → ℝ → Except Err (Filt ℝ)) (s : State ℝ)
    (f : List ℝ) (octaves hz : Option ℝ) (bs : List (ℝ × ℝ))
    (hbs : edges f octaves hz = .ok bs) (p : ℝ × ℝ) (hp : p ∈ bs) (e : Err)
    (hG : design p.1 p.2 = .error e) : ∃ e', viaFilterbank design s f octaves hz = .error e' := by
  have hm : ∀ l : List (ℝ × ℝ), p ∈ l → ∃ e', (l.mapM fun p => design p.1 p.2) = .error e' := by
    intro l hl
    induction l with
    | nil => simp at hl
    | cons q l ih =>
      rw [List.mapM_cons]
      cases hq : design q.1 q.2 with
      | error e' => exact ⟨e', rfl⟩
      | ok F =>
        rcases List.mem_cons.1 hl with h | h
        · subst h
          rw [hG] at hq
          cases hq
        · obtain ⟨e', he⟩ := ih h
          refine ⟨e', ?_⟩
          rw [he]
          rfl
  obtain ⟨e', he⟩ := hm bs hp
  refine ⟨e', ?_⟩
  unfold viaFilterbank
  rw [hbs]
  dsimp only
  rw [he]

/-! ## Concrete cases -/

theorem valid_two : Valid [100, 200] := by
  refine ⟨by simp, fun x hx => ?_, fun i j hij hj => ?_⟩
  · simp only [List.mem_cons, List.not_mem_nil, or_false] at hx
    rcases hx with h | h <;> rw [h] <;> norm_num
  · have h1 : j = 1 := by simp only [List.length_cons, List.length_nil] at hj; omega
    have h0 : i = 0 := by omega
    subst h1
    subst h0
    norm_num

example : ∃ t, fromFilter [100, 200] 48000 (.ba [1] [1, 1 / 2]) true = .ok t ∧ t.data.cols = 1 := by
  obtain ⟨t, h, -, -, -, hc, -⟩ := C149_filter [100, 200] valid_two 48000 (.ba [1] [1, 1 / 2]) true
  exact ⟨t, h, hc⟩

example : fromFilterbank [100, 200] 48000 [.fir [1], .fir [2], .fir [3]] .parallel false =
    .error .assertionError := C149_parallel_wrong _ _ _ _ (by simp)

/-- One channel of two samples whose filtered version exceeds one. -/
noncomputable def loud : State ℝ := ⟨⟨2, 1, fun r _ => if r = 0 then 1 else -1⟩, none, true, 1⟩

theorem loud_shaped : Shaped loud := ⟨by simp [loud], by simp [loud], by simp [loud]⟩

theorem loud_filtered (k : ℕ) (hk : k < 2) :
    filtered (.fir [2]) loud 0 k = if k = 0 then 2 else -2 := by
  unfold filtered
  interval_cases k <;>
    norm_num [Filt.channel, LFilter.fullConv, loud, colOf, List.range_succ, Finset.sum_range_succ]

example : ∃ t, viaFilterbank (fun _ _ => .ok (.fir [2])) loud [100, 200] (some 1) none = .ok t ∧
    (t.data.val 0 0).re < deviation 2 (filtered (.fir [2]) loud 0) := by
  obtain ⟨-, bs, hbs, hl, -⟩ := C149_bands [100, 200] 1 one_pos
  have h0 : 0 < bs.length := by rw [hl]; simp
  obtain ⟨t, ht, h⟩ := C149_constrained_wrong (fun _ _ => .ok (.fir [2])) loud loud_shaped rfl
    [100, 200] valid_two (some 1) none bs hbs (fun _ => .fir [2]) (fun _ _ => rfl) hl
    (by simp [loud]) 0 h0 0 0 (by simp [loud]) (by simp [loud])
    (by rw [loud_filtered 0 (by norm_num)]; norm_num)
  refine ⟨t, ht, h 0 (by simp [loud]) ?_⟩
  show 0 < deviation 2 (filtered (.fir [2]) loud 0)
  unfold deviation
  refine Real.sqrt_pos.2 ?_
  rw [Finset.sum_range_succ, Finset.sum_range_succ, Finset.sum_range_zero, Finset.sum_range_succ,
    Finset.sum_range_succ, Finset.sum_range_zero, loud_filtered 0 (by norm_num),
    loud_filtered 1 (by norm_num)]
  norm_num

end Verif.Props.C149
