import Verif.Model.SpectralDifference
import Verif.Props.C41
import Verif.Props.C42

/-!
# C121: the difference of spectra
-/

namespace Verif.SpectralDifference

open Spectrum Complex

/-! ### Specification -/

/-- `P` is the largest of the numbers `a 0, ..., a (n-1)`. -/
def IsMax (n : ℕ) (a : ℕ → ℝ) (P : ℝ) : Prop := (∀ k < n, a k ≤ P) ∧ ∃ k < n, a k = P

/-- Two spectra with the same frequencies and the same number of channels. -/
structure Same (s1 s2 : Spec) : Prop where
  freqs : s2.freqs = s1.freqs
  channels : s1.channels = s2.channels
  ascending : Ascending s1.freqs
  bins : 2 ≤ s1.freqs.length

/-! ### The largest value -/

theorem lexMax_ofReal (a b : ℝ) : lexMax (a : ℂ) b = ((max a b : ℝ) : ℂ) := by
  unfold lexMax
  simp only [ofReal_re, ofReal_im, le_refl, and_true]
  rcases lt_trichotomy a b with h | h | h
  · rw [if_pos (.inl h), max_eq_right h.le]
  · rw [if_pos (.inr h), h, max_self]
  · rw [if_neg (by rintro (h' | h') <;> linarith), max_eq_left h.le]

theorem fold_max (n : ℕ) (a : ℕ → ℝ) : ∃ P : ℝ,
    (List.range n).foldl (fun (acc : ℂ) (k : ℕ) => lexMax acc ((a (k + 1) : ℝ) : ℂ)) (a 0 : ℂ) = (P : ℂ) ∧
      IsMax (n + 1) a P := by
  induction n with
  | zero => exact ⟨a 0, rfl, fun k hk => by rw [show k = 0 by omega], 0, by omega, rfl⟩
  | succ n ih =>
    obtain ⟨P, h1, h2, k0, hk0, h3⟩ := ih
    refine ⟨max P (a (n + 1)), ?_, fun k hk => ?_, ?_⟩
    · rw [List.range_succ, List.foldl_append, h1, List.foldl_cons, List.foldl_nil, lexMax_ofReal]
    · rcases Nat.lt_succ_iff_lt_or_eq.1 hk with h | rfl
      · exact le_max_of_le_left (h2 k h)
      · exact le_max_right _ _
    · rcases le_total P (a (n + 1)) with h | h
      · exact ⟨n + 1, by omega, (max_eq_right h).symm⟩
      · exact ⟨k0, by omega, by rw [max_eq_left h, h3]⟩

theorem isMax_unique (n : ℕ) (a : ℕ → ℝ) (P Q : ℝ) (h : IsMax n a P) (h' : IsMax n a Q) : P = Q := by
  obtain ⟨k, hk, rfl⟩ := h.2
  obtain ⟨j, hj, rfl⟩ := h'.2
  exact le_antisymm (h'.1 k hk) (h.1 j hj)

theorem columnMax_real (n : ℕ) (hn : 1 ≤ n) (a : ℕ → ℝ) (P : ℝ) (h : IsMax n a P) :
    columnMax n (fun k => (a k : ℂ)) = P := by
  obtain ⟨Q, h1, h2⟩ := fold_max (n - 1) a
  rw [show n - 1 + 1 = n by omega] at h2
  unfold columnMax
  rw [h1, isMax_unique n a Q P h2 h]

theorem columnMax_congr (n : ℕ) (hn : 1 ≤ n) (d d' : ℕ → ℂ) (h : ∀ k < n, d k = d' k) :
    columnMax n d = columnMax n d' := by
  unfold columnMax
  rw [h 0 (by omega)]
  refine List.foldl_ext _ _ _ fun acc k hk => ?_
  rw [h (k + 1) (by have := List.mem_range.1 hk; omega)]

theorem columnMax_strict (n : ℕ) (d : ℕ → ℂ) (j : ℕ) (hj : j < n)
    (h : ∀ k < n, k ≠ j → (d k).re < (d j).re) : columnMax n d = d j := by
  have key : ∀ m < n, ∃ k ≤ m,
      (List.range m).foldl (fun (acc : ℂ) (k : ℕ) => lexMax acc (d (k + 1))) (d 0) = d k ∧
        (j ≤ m → k = j) := by
    intro m
    induction m with
    | zero => exact fun _ => ⟨0, le_rfl, rfl, fun h => by omega⟩
    | succ m ih =>
      intro hm
      obtain ⟨k, hk, h1, h2⟩ := ih (by omega)
      rw [List.range_succ, List.foldl_append, h1, List.foldl_cons, List.foldl_nil]
      rcases Nat.lt_trichotomy j (m + 1) with hlt | heq | hgt
      · refine ⟨k, by omega, ?_, fun _ => h2 (by omega)⟩
        have hkj := h2 (by omega)
        have := h (m + 1) hm (by omega)
        unfold lexMax
        rw [if_neg]
        rw [hkj]
        rintro (h' | ⟨h', -⟩) <;> linarith
      · refine ⟨m + 1, le_rfl, ?_, fun _ => heq.symm⟩
        have := h k (by omega) (by omega)
        unfold lexMax
        rw [if_pos (.inl (by rw [← heq]; exact this))]
      · by_cases hc : (d k).re < (d (m + 1)).re ∨ (d k).re = (d (m + 1)).re ∧ (d k).im ≤ (d (m + 1)).im
        · exact ⟨m + 1, le_rfl, by unfold lexMax; rw [if_pos hc], fun h => by omega⟩
        · exact ⟨k, by omega, by unfold lexMax; rw [if_neg hc], fun h => by omega⟩
  obtain ⟨k, -, h1, h2⟩ := key (n - 1) (by omega)
  unfold columnMax
  rw [h1, h2 (by omega)]

/-! ### The divisor on the same grid -/

theorem own_magnitude (f : List ℝ) (hf : Ascending f) (x : ℕ → ℂ) (k : ℕ) (hk : k < f.length) :
    convert .power .magnitude (interpolated .power .zeroPad f x (f.getD k 0)) = ((‖x k‖ : ℝ) : ℂ) :=
  C42_own_bins_partial .power .zeroPad .magnitude f hf x k hk (by simp)

theorem own_complex (f : List ℝ) (hf : Ascending f) (x : ℕ → ℂ) (k : ℕ) (hk : k < f.length) :
    convert .magnitudePhase .complex (interpolated .magnitudePhase .zeroPad f x (f.getD k 0)) = x k :=
  C42_own_bins_partial .magnitudePhase .zeroPad .complex f hf x k hk (by simp)

theorem divisor_none (f : List ℝ) (hf : Ascending f) (x : ℕ → ℂ) (k : ℕ) (hk : k < f.length) :
    divisor false none f f x k = ((‖x k‖ : ℝ) : ℂ) := own_magnitude f hf x k hk

theorem divisor_complex (f : List ℝ) (hf : Ascending f) (x : ℕ → ℂ) (k : ℕ) (hk : k < f.length) :
    divisor true none f f x k = x k := own_complex f hf x k hk

theorem divisor_some (f : List ℝ) (hf : Ascending f) (x : ℕ → ℂ) (k : ℕ) (hk : k < f.length) (r P : ℝ)
    (hP : IsMax f.length (fun k => ‖x k‖) P) :
    divisor false (some r) f f x k = ((max ‖x k‖ (P * 10 ^ (-|r| / 20)) : ℝ) : ℂ) := by
  have h1 : columnMax f.length (fun k =>
      convert .power .magnitude (interpolated .power .zeroPad f x (f.getD k 0))) = P := by
    rw [columnMax_congr _ (by omega) _ (fun k => ((‖x k‖ : ℝ) : ℂ))
      fun k hk => own_magnitude f hf x k hk]
    exact columnMax_real _ (by omega) _ P hP
  unfold divisor
  simp only [Bool.false_eq_true, if_false]
  rw [h1, own_magnitude f hf x k hk, ← ofReal_mul, lexMax_ofReal]
  simp [Level.fromDb, Level.dbFactor]

theorem ascending_pair : Ascending [(0 : ℝ), 1] := by
  intro i j hij hj
  have hj' : j < 2 := hj
  obtain ⟨rfl, rfl⟩ : i = 0 ∧ j = 1 := by omega
  simp

/-! ### The properties -/

theorem plain_eq (s1 s2 : Spec) (complex : Bool) (dr : Option ℝ) (hch : s1.channels = s2.channels)
    (hc : complex = true → s1.isMagnitude = false ∧ s2.isMagnitude = false)
    (hnan : s1.isMagnitude = true → ∀ c < s1.channels, ∀ k < s1.freqs.length,
      divisor complex dr s1.freqs s2.freqs (s2.x c) k = 0 → s1.x c k ≠ 0) :
    ∃ out, spectralDifference s1 s2 false complex dr = .ok out ∧
      ∀ c k, out c k = if divisor complex dr s1.freqs s2.freqs (s2.x c) k = 0 then none
        else some (s1.x c k / divisor complex dr s1.freqs s2.freqs (s2.x c) k) := by
  unfold spectralDifference normalized
  rw [if_neg (not_not.2 hch), if_neg (by
    rintro ⟨h1, h2⟩
    rw [(hc h1).1] at h2
    simp at h2), if_neg (by
    rintro ⟨h1, h2⟩
    rw [(hc h1).2] at h2
    simp at h2)]
  simp only [Bool.false_eq_true, if_false, Option.map_some]
  rw [if_neg]
  · exact ⟨_, rfl, fun c k => rfl⟩
  · rintro ⟨h1, c, hc, k, hk, h | ⟨h2, x, h3, h4⟩⟩
    · simp at h
    · rw [← Option.some.inj h3] at h4
      exact hnan h1 c hc k hk (Option.some.inj h2) h4

/-- Without dynamic range: the quotient by the magnitudes of the second input, wherever they are not
zero. -/
theorem C121_quotient (s1 s2 : Spec) (h : Same s1 s2)
    (hnan : s1.isMagnitude = true → ∀ c < s1.channels, ∀ k < s1.freqs.length,
      s2.x c k = 0 → s1.x c k ≠ 0) :
    ∃ out, spectralDifference s1 s2 false false none = .ok out ∧
      ∀ c < s1.channels, ∀ k < s1.freqs.length, s2.x c k ≠ 0 →
        out c k = some (s1.x c k / ((‖s2.x c k‖ : ℝ) : ℂ)) := by
  have hd : ∀ c k, k < s1.freqs.length →
      divisor false none s1.freqs s2.freqs (s2.x c) k = ((‖s2.x c k‖ : ℝ) : ℂ) := by
    intro c k hk
    rw [h.freqs]
    exact divisor_none _ h.ascending _ k hk
  obtain ⟨out, h1, h2⟩ := plain_eq s1 s2 false none h.channels (by simp) (by
    intro hm c hc k hk h0
    rw [hd c k hk] at h0
    exact hnan hm c hc k hk (norm_eq_zero.1 (by exact_mod_cast h0)))
  refine ⟨out, h1, fun c _ k hk hne => ?_⟩
  rw [h2, hd c k hk, if_neg (by exact_mod_cast norm_ne_zero_iff.2 hne)]

/-- With a dynamic range: magnitudes of the second input that are further below its largest one are
raised, each channel by itself. -/
theorem C121_range (s1 s2 : Spec) (h : Same s1 s2) (r : ℝ) (P : ℕ → ℝ)
    (hP : ∀ c < s1.channels, IsMax s1.freqs.length (fun k => ‖s2.x c k‖) (P c) ∧ P c ≠ 0) :
    ∃ out, spectralDifference s1 s2 false false (some r) = .ok out ∧
      ∀ c < s1.channels, ∀ k < s1.freqs.length,
        out c k = some (s1.x c k / ((max ‖s2.x c k‖ (P c * 10 ^ (-|r| / 20)) : ℝ) : ℂ)) := by
  have hd : ∀ c < s1.channels, ∀ k < s1.freqs.length,
      divisor false (some r) s1.freqs s2.freqs (s2.x c) k =
        ((max ‖s2.x c k‖ (P c * 10 ^ (-|r| / 20)) : ℝ) : ℂ) := by
    intro c hc k hk
    rw [h.freqs]
    exact divisor_some _ h.ascending _ k hk r (P c) (hP c hc).1
  have hpos : ∀ c < s1.channels, ∀ k, max ‖s2.x c k‖ (P c * 10 ^ (-|r| / 20)) ≠ 0 := by
    intro c hc k
    obtain ⟨⟨-, j, hj, h1⟩, h2⟩ := hP c hc
    have : 0 < P c := lt_of_le_of_ne (h1 ▸ norm_nonneg _) (Ne.symm h2)
    exact (lt_max_of_lt_right (by positivity)).ne'
  obtain ⟨out, h1, h2⟩ := plain_eq s1 s2 false (some r) h.channels (by simp) (by
    intro hm c hc k hk h0
    rw [hd c hc k hk] at h0
    exact absurd (by exact_mod_cast h0) (hpos c hc k))
  refine ⟨out, h1, fun c hc k hk => ?_⟩
  rw [h2, hd c hc k hk, if_neg (by exact_mod_cast hpos c hc k)]

/-- Complex difference without dynamic range: the quotient. -/
theorem C121_complex_partial (s1 s2 : Spec) (h : Same s1 s2) (hm1 : s1.isMagnitude = false)
    (hm2 : s2.isMagnitude = false) :
    ∃ out, spectralDifference s1 s2 false true none = .ok out ∧
      ∀ c < s1.channels, ∀ k < s1.freqs.length, s2.x c k ≠ 0 →
        out c k = some (s1.x c k / s2.x c k) := by
  have hd : ∀ c k, k < s1.freqs.length →
      divisor true none s1.freqs s2.freqs (s2.x c) k = s2.x c k := by
    intro c k hk
    rw [h.freqs]
    exact divisor_complex _ h.ascending _ k hk
  obtain ⟨out, h1, h2⟩ := plain_eq s1 s2 true none h.channels (fun _ => ⟨hm1, hm2⟩)
    (by rw [hm1]; simp)
  refine ⟨out, h1, fun c _ k hk hne => ?_⟩
  rw [h2, hd c k hk, if_neg hne]

/-- Complex difference with a dynamic range: NumPy compares real parts, so that a bin with a negative
real part is replaced by a positive number, however large the bin is.  If the largest real part `P`
belongs to a real bin, a spectrum differs from itself at all those bins. -/
theorem C121_complex_wrong (s : Spec) (hf : Ascending s.freqs) (hb : 2 ≤ s.freqs.length)
    (hm : s.isMagnitude = false) (r : ℝ) (c : ℕ) (j : ℕ)
    (hj : j < s.freqs.length) (P : ℝ) (hP : 0 < P) (hPj : s.x c j = P)
    (hmax : ∀ k < s.freqs.length, k ≠ j → (s.x c k).re < P) :
    ∃ out, spectralDifference s s false true (some r) = .ok out ∧
      ∀ k < s.freqs.length, (s.x c k).re < 0 →
        out c k = some (s.x c k / ((P * 10 ^ (-|r| / 20) : ℝ) : ℂ)) ∧ out c k ≠ some 1 := by
  obtain ⟨out, h1, h2⟩ := plain_eq s s true (some r) rfl (fun _ => ⟨hm, hm⟩) (by rw [hm]; simp)
  refine ⟨out, h1, fun k hk hneg => ?_⟩
  have hM : columnMax s.freqs.length (fun k => convert .magnitudePhase .complex
      (interpolated .magnitudePhase .zeroPad s.freqs (s.x c) (s.freqs.getD k 0))) = P := by
    rw [columnMax_congr _ (by omega) _ (s.x c) fun k hk => own_complex _ hf _ k hk, ← hPj]
    refine columnMax_strict _ _ j hj fun k hk hkj => ?_
    rw [hPj, ofReal_re]
    exact hmax k hk hkj
  have hQ : 0 < P * (10 : ℝ) ^ (-|r| / 20) := by positivity
  have hd : divisor true (some r) s.freqs s.freqs (s.x c) k = ((P * 10 ^ (-|r| / 20) : ℝ) : ℂ) := by
    unfold divisor
    simp only [if_true]
    rw [hM, own_complex _ hf _ k hk, ← ofReal_mul]
    have : Level.fromDb (-|r|) true = 10 ^ (-|r| / 20) := by simp [Level.fromDb, Level.dbFactor]
    rw [this]
    unfold lexMax
    rw [if_pos (.inl (by rw [ofReal_re]; linarith))]
  rw [h2, hd, if_neg (by exact_mod_cast hQ.ne')]
  refine ⟨rfl, fun h => ?_⟩
  have h3 := Option.some.inj h
  rw [div_eq_one_iff_eq (by exact_mod_cast hQ.ne')] at h3
  rw [h3, ofReal_re] at hneg
  linarith

/-- Both inputs are zero at a bin: without dynamic range, magnitudes are refused altogether. -/
theorem C121_zero_wrong (s1 s2 : Spec) (h : Same s1 s2) (hm : s1.isMagnitude = true) (c k : ℕ)
    (hc : c < s1.channels) (hk : k < s1.freqs.length) (h1 : s1.x c k = 0) (h2 : s2.x c k = 0) :
    spectralDifference s1 s2 false false none = .error .assertionError := by
  unfold spectralDifference normalized
  rw [if_neg (not_not.2 h.channels), if_neg (by simp), if_neg (by simp)]
  simp only [Bool.false_eq_true, if_false, Option.map_some]
  rw [if_pos]
  refine ⟨hm, c, hc, k, hk, .inr ⟨?_, _, rfl, h1⟩⟩
  rw [h.freqs, divisor_none _ h.ascending _ k hk, h2]
  simp

/-- `complex=False` does not give magnitudes if the first input is complex: its phase remains. -/
theorem C121_phase_wrong : ∃ s1 s2 : Spec, Same s1 s2 ∧ s2.isMagnitude = true ∧
    ∃ out, spectralDifference s1 s2 false false none = .ok out ∧ out 0 0 = some I := by
  have hs : Same ⟨[0, 1], 1, fun _ _ => I, false⟩ ⟨[0, 1], 1, fun _ _ => 1, true⟩ :=
    ⟨rfl, rfl, ascending_pair, le_rfl⟩
  obtain ⟨out, h1, h2⟩ := C121_quotient _ _ hs (by simp)
  refine ⟨_, _, hs, rfl, out, h1, ?_⟩
  rw [h2 0 (by simp) 0 (by simp) (by simp)]
  simp

/-- Different numbers of channels are refused, and so are magnitudes for a complex difference. -/
theorem C121_rejects (s1 s2 : Spec) (norm : Bool) (dr : Option ℝ) :
    (s1.channels ≠ s2.channels → ∀ complex,
      spectralDifference s1 s2 norm complex dr = .error .assertionError) ∧
    (s1.isMagnitude = true ∨ s2.isMagnitude = true →
      spectralDifference s1 s2 norm true dr = .error .assertionError) := by
  constructor
  · intro h complex
    unfold spectralDifference
    rw [if_pos h]
  · intro h
    unfold spectralDifference
    split_ifs with h1 h2 h3
    · rfl
    · rfl
    · rfl
    · exact absurd h (by tauto)

/-! ### Energy normalization -/

/-- The area under the squared magnitudes of a channel. -/
noncomputable def areaOf (s : Spec) (c : ℕ) : ℝ :=
  area (fun k => s.freqs.getD k 0) (fun k => ‖s.x c k‖ ^ 2) 0 (s.freqs.length - 1)

/-- Every channel with energy 1. -/
noncomputable def unit (s : Spec) : Spec :=
  { s with x := fun c k => s.x c k / ((Real.sqrt (areaOf s c) : ℝ) : ℂ) }

theorem energy_area (s : Spec) (hf : s.freqs ≠ []) (c : ℕ) :
    energy s.freqs (fun k c => ‖s.x c k‖ ^ 2) none none c = .ok (areaOf s c) := by
  have : 0 < s.freqs.length := List.length_pos_iff.2 hf
  unfold energy toSlice lowIndex highIndex
  simp only
  rw [if_pos this]
  simp only
  rw [trapezoid_eq_area]
  rfl

theorem energies (s : Spec) (hf : s.freqs ≠ []) :
    (List.range s.channels).mapM (fun c => energy s.freqs (fun k c => ‖s.x c k‖ ^ 2) none none c) =
      .ok ((List.range s.channels).map (areaOf s)) := by
  have : (fun c => energy s.freqs (fun k c => ‖s.x c k‖ ^ 2) none none c) =
      fun c => pure (areaOf s c) := by
    funext c
    exact energy_area s hf c
  rw [this, List.mapM_pure]
  rfl

theorem normalized_unit (s : Spec) (hf : s.freqs ≠ []) (h0 : ∀ c < s.channels, areaOf s c ≠ 0) :
    ∃ n, normalized true s = .ok n ∧ ∀ c < s.channels, n c = some ((unit s).x c) := by
  have hg : ∀ c < s.channels, ((List.range s.channels).map (areaOf s)).getD c 0 = areaOf s c := by
    intro c hc
    simp [List.getD_eq_getElem?_getD, List.getElem?_range hc]
  unfold normalized
  rw [if_pos rfl, energies s hf]
  simp only
  rw [if_neg]
  · refine ⟨_, rfl, fun c hc => ?_⟩
    rw [hg c hc, if_neg (h0 c hc)]
    rfl
  · rintro ⟨-, c, hc, h⟩
    rw [hg c hc] at h
    exact h0 c hc h

/-- With energy normalization the difference is the one of the spectra in which each channel is divided
by the root of the area under its squared magnitudes. -/
theorem C121_normalization (s1 s2 : Spec) (complex : Bool) (dr : Option ℝ) (h1 : s1.freqs ≠ [])
    (h2 : s2.freqs ≠ []) (hE1 : ∀ c < s1.channels, areaOf s1 c ≠ 0)
    (hE2 : ∀ c < s2.channels, areaOf s2 c ≠ 0) :
    (∀ e, spectralDifference s1 s2 true complex dr = .error e ↔
      spectralDifference (unit s1) (unit s2) false complex dr = .error e) ∧
    ∀ o o', spectralDifference s1 s2 true complex dr = .ok o →
      spectralDifference (unit s1) (unit s2) false complex dr = .ok o' →
      ∀ c < s1.channels, ∀ k, o c k = o' c k := by
  obtain ⟨n1, e1, hn1⟩ := normalized_unit s1 h1 hE1
  obtain ⟨n2, e2, hn2⟩ := normalized_unit s2 h2 hE2
  by_cases hch : s1.channels = s2.channels
  swap
  · have a := (C121_rejects s1 s2 true dr).1 hch complex
    have b := (C121_rejects (unit s1) (unit s2) false dr).1 hch complex
    rw [a, b]
    exact ⟨fun e => Iff.rfl, by simp⟩
  unfold spectralDifference
  rw [e1, e2]
  have hu1 : (unit s1).channels = s1.channels := rfl
  have hu2 : (unit s2).channels = s2.channels := rfl
  have hm1 : (unit s1).isMagnitude = s1.isMagnitude := rfl
  have hm2 : (unit s2).isMagnitude = s2.isMagnitude := rfl
  have hf1 : (unit s1).freqs = s1.freqs := rfl
  have hf2 : (unit s2).freqs = s2.freqs := rfl
  simp only [hu1, hu2, hm1, hm2, hf1, hf2, normalized, Bool.false_eq_true, if_false]
  have hP : (s1.isMagnitude = true ∧ ∃ c < s1.channels, ∃ k < s1.freqs.length,
        ((n2 c).map fun y => divisor complex dr s1.freqs s2.freqs y k) = none ∨
        (((n2 c).map fun y => divisor complex dr s1.freqs s2.freqs y k) = some 0 ∧
          ∃ x, n1 c = some x ∧ x k = 0)) ↔
      (s1.isMagnitude = true ∧ ∃ c < s1.channels, ∃ k < s1.freqs.length,
        ((some ((unit s2).x c)).map fun y => divisor complex dr s1.freqs s2.freqs y k) = none ∨
        (((some ((unit s2).x c)).map fun y => divisor complex dr s1.freqs s2.freqs y k) = some 0 ∧
          ∃ x, some ((unit s1).x c) = some x ∧ x k = 0)) := by
    refine and_congr_right fun _ => exists_congr fun c => ?_
    refine and_congr_right fun hc => ?_
    rw [hn1 c hc, hn2 c (hch ▸ hc)]
  by_cases hA : complex = true ∧ s1.isMagnitude = true
  · rw [if_neg (not_not.2 hch), if_neg (not_not.2 hch), if_pos hA, if_pos hA]
    exact ⟨fun e => Iff.rfl, by simp⟩
  by_cases hB : complex = true ∧ s2.isMagnitude = true
  · rw [if_neg (not_not.2 hch), if_neg (not_not.2 hch), if_neg hA, if_neg hA, if_pos hB, if_pos hB]
    exact ⟨fun e => Iff.rfl, by simp⟩
  rw [if_neg (not_not.2 hch), if_neg (not_not.2 hch), if_neg hA, if_neg hA, if_neg hB, if_neg hB]
  by_cases hC : (s1.isMagnitude = true ∧ ∃ c < s1.channels, ∃ k < s1.freqs.length,
        ((n2 c).map fun y => divisor complex dr s1.freqs s2.freqs y k) = none ∨
        (((n2 c).map fun y => divisor complex dr s1.freqs s2.freqs y k) = some 0 ∧
          ∃ x, n1 c = some x ∧ x k = 0))
  · rw [if_pos hC, if_pos (hP.1 hC)]
    exact ⟨fun e => Iff.rfl, by simp⟩
  · rw [if_neg hC, if_neg fun h => hC (hP.2 h)]
    refine ⟨fun e => by simp, fun o o' ho ho' c hc k => ?_⟩
    rw [← Except.ok.inj ho, ← Except.ok.inj ho']
    simp only [hn1 c hc, hn2 c (hch ▸ hc)]

/-- The spectrum with gains. -/
noncomputable def gain (g : ℕ → ℝ) (s : Spec) : Spec := { s with x := fun c k => s.x c k * (g c : ℂ) }

theorem areaOf_gain (g : ℕ → ℝ) (s : Spec) (c : ℕ) : areaOf (gain g s) c = g c ^ 2 * areaOf s c := by
  unfold areaOf area gain
  rw [Finset.mul_sum]
  refine Finset.sum_congr rfl fun k _ => ?_
  simp only [norm_mul, norm_real, mul_pow, Real.norm_eq_abs, sq_abs]
  ring

theorem normalized_gain (g : ℕ → ℝ) (s : Spec) (hg : ∀ c, 0 < g c) (hf : s.freqs ≠ []) :
    normalized true (gain g s) = normalized true s := by
  have hf' : (gain g s).freqs ≠ [] := hf
  have e1 := energies (gain g s) hf'
  have e2 := energies s hf
  have hc' : (gain g s).channels = s.channels := rfl
  have hgd : ∀ (t : Spec) c, ((List.range s.channels).map (areaOf t)).getD c 0 =
      if c < s.channels then areaOf t c else 0 := by
    intro t c
    by_cases hc : c < s.channels
    · simp [List.getD_eq_getElem?_getD, hc]
    · rw [if_neg hc, List.getD_eq_default _ _ (by simpa using hc)]
  have hz : ∀ c, ((List.range s.channels).map (areaOf (gain g s))).getD c 0 = 0 ↔
      ((List.range s.channels).map (areaOf s)).getD c 0 = 0 := by
    intro c
    rw [hgd, hgd, areaOf_gain]
    split_ifs
    · simp [(hg c).ne']
    · simp
  unfold normalized
  rw [if_pos rfl, if_pos rfl, e1, e2, hc']
  simp only [hz]
  have hm : (gain g s).isMagnitude = s.isMagnitude := rfl
  rw [hm]
  congr 1
  congr 1
  funext c
  by_cases h0 : ((List.range s.channels).map (areaOf s)).getD c 0 = 0
  · rw [if_pos h0, if_pos h0]
  · rw [if_neg h0, if_neg h0]
    congr 1
    funext k
    rw [hgd, hgd, areaOf_gain]
    by_cases hc : c < s.channels
    · rw [if_pos hc, if_pos hc, Real.sqrt_mul (sq_nonneg _), Real.sqrt_sq (hg c).le]
      have : (g c : ℂ) ≠ 0 := by exact_mod_cast (hg c).ne'
      change s.x c k * (g c : ℂ) / _ = _
      rw [ofReal_mul, mul_comm (s.x c k), mul_div_mul_left _ _ this]
    · exact absurd (by rw [hgd, if_neg hc]) h0

/-- Gains of the channels do not matter with energy normalization, for any two grids. -/
theorem C121_gain (s1 s2 : Spec) (a b : ℕ → ℝ) (ha : ∀ c, 0 < a c) (hb : ∀ c, 0 < b c)
    (complex : Bool) (dr : Option ℝ) (h1 : s1.freqs ≠ []) (h2 : s2.freqs ≠ []) :
    spectralDifference (gain a s1) (gain b s2) true complex dr =
      spectralDifference s1 s2 true complex dr := by
  unfold spectralDifference
  rw [normalized_gain a s1 ha h1, normalized_gain b s2 hb h2]
  rfl

/-- A silent channel: magnitudes are refused with energy normalization. -/
theorem C121_silence_wrong (s1 s2 : Spec) (complex : Bool) (dr : Option ℝ) (hf : s1.freqs ≠ [])
    (hm : s1.isMagnitude = true) (c : ℕ) (hc : c < s1.channels)
    (h0 : ∀ k, s1.x c k = 0) :
    spectralDifference s1 s2 true complex dr = .error .assertionError := by
  have hn : normalized true s1 = .error .assertionError := by
    unfold normalized
    rw [if_pos rfl, energies s1 hf]
    simp only
    rw [if_pos]
    refine ⟨hm, c, hc, ?_⟩
    simp [List.getD_eq_getElem?_getD, List.getElem?_range hc, areaOf, area, h0]
  unfold spectralDifference
  rw [hn]
  split_ifs <;> rfl

/-- Spectra that differ by gains only differ by 1 wherever the dynamic range is not exceeded. -/
theorem C121_self (s : Spec) (a b : ℕ → ℝ) (ha : ∀ c, 0 < a c) (hb : ∀ c, 0 < b c) (hf : Ascending s.freqs)
    (hl : 2 ≤ s.freqs.length) (r : ℝ) (P : ℕ → ℝ)
    (hx : ∀ c k, s.x c k = ((‖s.x c k‖ : ℝ) : ℂ))
    (hP : ∀ c < s.channels, IsMax s.freqs.length (fun k => ‖s.x c k‖) (P c) ∧ P c ≠ 0) :
    ∃ out, spectralDifference (gain a s) (gain b s) true false (some r) = .ok out ∧
      ∀ c < s.channels, ∀ k < s.freqs.length, P c * 10 ^ (-|r| / 20) ≤ ‖s.x c k‖ →
        out c k = some 1 := by
  have hne : s.freqs ≠ [] := by
    rintro h
    rw [h] at hl
    simp at hl
  rw [C121_gain s s a b ha hb _ _ hne hne]
  have hE : ∀ c < s.channels, 0 < areaOf s c := by
    intro c hc
    obtain ⟨⟨-, j, hj, h1⟩, h2⟩ := hP c hc
    have hpos : 0 < ‖s.x c j‖ := lt_of_le_of_ne (norm_nonneg _) (by rw [show ‖s.x c j‖ = P c from h1]; exact Ne.symm h2)
    have hstep : ∀ k ∈ Finset.Ico 0 (s.freqs.length - 1), 0 < s.freqs.getD (k + 1) 0 - s.freqs.getD k 0 := by
      intro k hk
      have := (Finset.mem_Ico.1 hk).2
      exact sub_pos.2 (hf k (k + 1) (by omega) (by omega))
    unfold areaOf area
    refine Finset.sum_pos' (fun k hk => ?_) ?_
    · have := hstep k hk
      positivity
    · rcases Nat.eq_zero_or_pos j with rfl | hj0
      · refine ⟨0, Finset.mem_Ico.2 ⟨le_rfl, by omega⟩, ?_⟩
        have := hstep 0 (Finset.mem_Ico.2 ⟨le_rfl, by omega⟩)
        have : 0 < ‖s.x c 0‖ ^ 2 := by positivity
        positivity
      · have hmem : j - 1 ∈ Finset.Ico 0 (s.freqs.length - 1) := Finset.mem_Ico.2 ⟨by omega, by omega⟩
        refine ⟨j - 1, hmem, ?_⟩
        have := hstep _ hmem
        rw [show j - 1 + 1 = j by omega] at this ⊢
        have : 0 < ‖s.x c j‖ ^ 2 := by positivity
        positivity
  have hw : ∀ c < s.channels, 0 < Real.sqrt (areaOf s c) := fun c hc => Real.sqrt_pos.2 (hE c hc)
  have hnorm : ∀ c < s.channels, ∀ k, ‖(unit s).x c k‖ = ‖s.x c k‖ / Real.sqrt (areaOf s c) := by
    intro c hc k
    unfold unit
    simp only
    rw [norm_div, norm_real, Real.norm_of_nonneg (hw c hc).le]
  obtain ⟨o', h1, h2⟩ := C121_range (unit s) (unit s) ⟨rfl, rfl, hf, hl⟩ r
    (fun c => P c / Real.sqrt (areaOf s c)) (by
      intro c hc
      obtain ⟨⟨h3, j, hj, h4⟩, h5⟩ := hP c hc
      refine ⟨⟨fun k hk => ?_, j, hj, ?_⟩, div_ne_zero h5 (hw c hc).ne'⟩
      · beta_reduce
        rw [hnorm c hc]
        exact div_le_div_of_nonneg_right (h3 k hk) (hw c hc).le
      · simp only
        rw [hnorm c hc]
        exact congrArg (· / _) h4)
  obtain ⟨hiff, hok⟩ := C121_normalization s s false (some r) hne hne (fun c hc => (hE c hc).ne')
    (fun c hc => (hE c hc).ne')
  cases ho : spectralDifference s s true false (some r) with
  | error e =>
    rw [(hiff e).1 ho] at h1
    cases h1
  | ok o =>
    refine ⟨o, rfl, fun c hc k hk hle => ?_⟩
    have hc' : c < (unit s).channels := hc
    have hk' : k < (unit s).freqs.length := hk
    rw [hok o o' ho h1 c hc k, h2 c hc' k hk', hnorm c hc, max_eq_left]
    · have hp : 0 < ‖s.x c k‖ := by
        refine lt_of_lt_of_le ?_ hle
        obtain ⟨⟨h3, j, hj, h4⟩, h5⟩ := hP c hc
        have : 0 < P c := lt_of_le_of_ne (h4 ▸ norm_nonneg _) (Ne.symm h5)
        positivity
      have : (unit s).x c k = ((‖s.x c k‖ / Real.sqrt (areaOf s c) : ℝ) : ℂ) := by
        rw [ofReal_div, ← hx]
        rfl
      rw [this, div_self]
      exact_mod_cast (div_pos hp (hw c hc)).ne'
    · rw [div_mul_eq_mul_div]
      exact div_le_div_of_nonneg_right hle (hw c hc).le

/-! ### Another grid -/

/-- Between two bins of the second input, its power is interpolated. -/
theorem C121_between (s1 s2 : Spec) (hch : s1.channels = s2.channels) (hm : s1.isMagnitude = false)
    (hf : Ascending s2.freqs) (c k j : ℕ) (hj : j + 1 < s2.freqs.length) (t : ℝ) (ht0 : 0 ≤ t)
    (ht1 : t < 1) (hpos : s1.freqs.getD k 0 = (1 - t) * s2.freqs.getD j 0 + t * s2.freqs.getD (j + 1) 0)
    (hne : 0 < (1 - t) * ‖s2.x c j‖ ^ 2 + t * ‖s2.x c (j + 1)‖ ^ 2) :
    ∃ out, spectralDifference s1 s2 false false none = .ok out ∧
      ∃ m : ℝ, 0 < m ∧ m ^ 2 = (1 - t) * ‖s2.x c j‖ ^ 2 + t * ‖s2.x c (j + 1)‖ ^ 2 ∧
        out c k = some (s1.x c k / (m : ℂ)) := by
  obtain ⟨out, h1, h2⟩ := plain_eq s1 s2 false none hch (by simp) (by rw [hm]; simp)
  have hstep : 0 < s2.freqs.getD (j + 1) 0 - s2.freqs.getD j 0 := sub_pos.2 (hf j (j + 1) (by omega) hj)
  have hd : divisor false none s1.freqs s2.freqs (s2.x c) k =
      ((Real.sqrt ((1 - t) * ‖s2.x c j‖ ^ 2 + t * ‖s2.x c (j + 1)‖ ^ 2) : ℝ) : ℂ) := by
    unfold divisor
    simp only [Bool.false_eq_true, if_false, convert, interpolated, ofReal_re]
    rw [interp_segment _ _ hf _ _ _ j hj (by rw [hpos]; nlinarith) (by rw [hpos]; nlinarith), hpos]
    have e : ∀ i < s2.freqs.length, (column s2.freqs.length (interpData .power (s2.x c))).getD i 0 =
        ‖s2.x c i‖ ^ 2 := by
      intro i hi
      simp [column, interpData, List.getD_eq_getElem?_getD, List.getElem?_range hi]
    rw [e j (by omega), e (j + 1) hj]
    congr 2
    field_simp
    ring
  refine ⟨out, h1, _, Real.sqrt_pos.2 hne, Real.sq_sqrt hne.le, ?_⟩
  rw [h2, hd, if_neg (by exact_mod_cast (Real.sqrt_pos.2 hne).ne')]

/-- Without dynamic range the first input has to stay inside the frequencies of the second one: outside,
the second one is taken as zero, and the result is not finite. -/
theorem C121_outside_wrong (s1 s2 : Spec) (hch : s1.channels = s2.channels)
    (hm : s1.isMagnitude = false) (c k : ℕ)
    (hout : s1.freqs.getD k 0 < s2.freqs.getD 0 0 ∨
      s2.freqs.getD (s2.freqs.length - 1) 0 < s1.freqs.getD k 0) :
    ∃ out, spectralDifference s1 s2 false false none = .ok out ∧ out c k = none := by
  obtain ⟨out, h1, h2⟩ := plain_eq s1 s2 false none hch (by simp) (by rw [hm]; simp)
  refine ⟨out, h1, ?_⟩
  rw [h2, if_pos]
  unfold divisor
  simp only [Bool.false_eq_true, if_false, convert, interpolated, ofReal_re]
  have : interp s2.freqs (column s2.freqs.length (interpData .power (s2.x c)))
      (edgeValues .zeroPad s2.freqs.length (interpData .power (s2.x c))).1
      (edgeValues .zeroPad s2.freqs.length (interpData .power (s2.x c))).2 (s1.freqs.getD k 0) = 0 := by
    unfold interp
    split_ifs with ha hb
    · rfl
    · rfl
    · exact absurd hout (by tauto)
  rw [this]
  simp

/-! ### The hypotheses can be met -/

example : ∃ s : Spec, Ascending s.freqs ∧ 2 ≤ s.freqs.length ∧ 0 < s.channels ∧
    (∀ c k, s.x c k = ((‖s.x c k‖ : ℝ) : ℂ)) ∧
    ∀ c < s.channels, IsMax s.freqs.length (fun k => ‖s.x c k‖) 2 ∧ (2 : ℝ) ≠ 0 :=
  ⟨⟨[0, 1], 1, fun _ k => if k = 0 then 2 else 1, true⟩, ascending_pair, le_rfl, Nat.one_pos,
    fun c k => by dsimp only; split_ifs <;> simp,
    fun c _ => ⟨⟨fun k _ => by dsimp only; split_ifs <;> norm_num, 0, by simp, by simp⟩, two_ne_zero⟩⟩

/-- A spectrum with the values 1 and -1 is compared to itself: 1 and -100000 instead of 1 and 1. -/
example : ∃ out, spectralDifference ⟨[0, 1], 1, fun _ k => if k = 0 then 1 else -1, false⟩
    ⟨[0, 1], 1, fun _ k => if k = 0 then 1 else -1, false⟩ false true (some 100) = .ok out ∧
      out 0 1 = some (-100000) := by
  obtain ⟨out, h1, h2⟩ := C121_complex_wrong ⟨[0, 1], 1, fun _ k => if k = 0 then 1 else -1, false⟩
    ascending_pair le_rfl rfl 100 0 0 (by simp) 1 one_pos (by simp) (by
      intro k hk h0
      dsimp only
      rw [if_neg h0]
      norm_num)
  refine ⟨out, h1, ?_⟩
  rw [(h2 1 (by simp) (by simp)).1]
  have : (10 : ℝ) ^ (-|(100 : ℝ)| / 20) = 1 / 100000 := by
    rw [abs_of_pos (by norm_num), show (-(100 : ℝ) / 20) = ((-5 : ℤ) : ℝ) by norm_num, Real.rpow_intCast]
    norm_num
  rw [this]
  norm_num

end Verif.SpectralDifference
