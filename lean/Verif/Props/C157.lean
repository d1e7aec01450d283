import Verif.Model.FirDesign
import Mathlib.Analysis.SpecialFunctions.Integrals.Basic

/-!
# C157: FIR filters designed by windowing
-/

namespace Verif.FirDesign

open FractionalDelay

/-! ### Specification -/

/-- The frequency response of the taps `b` at `f` Hz. -/
noncomputable def response (b : List ℝ) (fs : ℕ) (f : ℝ) : ℂ :=
  ∑ n ∈ Finset.range b.length, (b.getD n 0 : ℂ) * Complex.exp (-Complex.I * ((2 * Real.pi * f / fs * n : ℝ) : ℂ))

/-- The ideal filter with the given edges passes half of the sampling rate. -/
def PassesNyquist (type : Pass) (count : ℕ) : Prop :=
  type = .highpass ∨ type = .bandpass ∧ count % 2 = 1 ∨ type = .bandstop ∧ count % 2 = 0

/-- The requests that have a filter. -/
def Valid (order : ℕ) (freqs : List ℝ) (type : Pass) (fs : ℕ) : Prop :=
  (∀ f ∈ freqs, 0 < f ∧ f < fs / 2) ∧ freqs.Pairwise (· < ·) ∧
  (match type with
    | .lowpass | .highpass => freqs.length = 1
    | .bandpass | .bandstop => 2 ≤ freqs.length) ∧
  (PassesNyquist type freqs.length → order % 2 = 0)

/-- The bands (in Hz) that pass from `start` to `N`, for a filter that passes `start` or not and changes between
passing and stopping at every edge. -/
def alternate (N : ℝ) : (passing : Bool) → (start : ℝ) → (edges : List ℝ) → List (ℝ × ℝ)
  | true, start, [] => [(start, N)]
  | false, _, [] => []
  | true, start, c :: r => (start, c) :: alternate N false c r
  | false, _, c :: r => alternate N true c r

/-- The bands (in Hz) that pass, for half of the sampling rate `N`: low-pass and band-stop filters begin with
passing. -/
def passBands (N : ℝ) (type : Pass) (edges : List ℝ) : List (ℝ × ℝ) :=
  match type with
  | .lowpass | .bandstop => alternate N true 0 edges
  | .highpass | .bandpass => alternate N false 0 edges

/-- A low-pass filter, a high-pass filter, a band-pass and a band-stop filter. -/
example (N a b : ℝ) : passBands N .lowpass [a] = [(0, a)] ∧ passBands N .highpass [a] = [(a, N)] ∧
    passBands N .bandpass [a, b] = [(a, b)] ∧ passBands N .bandstop [a, b] = [(0, a), (b, N)] :=
  ⟨rfl, rfl, rfl, rfl⟩

/-- The frequency (in Hz) with gain 1. -/
inductive Reference (N : ℝ) : Pass → List ℝ → ℝ → Prop
  | low (c : ℝ) : Reference N .lowpass [c] 0
  | high (c : ℝ) : Reference N .highpass [c] N
  | band (a b : ℝ) (more : List ℝ) : Reference N .bandpass (a :: b :: more) ((a + b) / 2)
  | stop (edges : List ℝ) : Reference N .bandstop edges 0

/-! ### Lemmas -/

theorem increasing_iff (l : List ℝ) : increasing l ↔ l.Pairwise (· < ·) := by
  induction l with
  | nil => simp [increasing]
  | cons a t ih =>
    cases t with
    | nil => simp [increasing]
    | cons b r =>
      rw [increasing, ih, List.pairwise_cons (a := a)]
      constructor
      · rintro ⟨h1, h2⟩
        refine ⟨fun x hx => ?_, h2⟩
        rcases List.mem_cons.1 hx with rfl | hx
        · exact h1
        · exact h1.trans ((List.pairwise_cons.1 h2).1 x hx)
      · rintro ⟨h1, h2⟩
        exact ⟨h1 b (by simp), h2⟩

theorem sinc_neg (t : ℝ) : sinc (-t) = sinc t := by
  unfold sinc
  by_cases h : t = 0
  · simp [h]
  · rw [if_neg h, if_neg (by simpa using h), mul_neg, Real.sin_neg, neg_div_neg_eq]

theorem pos_reflect (order n : ℕ) (hn : n ≤ order) : pos (order + 1) (order - n) = -pos (order + 1) n := by
  unfold pos
  rw [Nat.cast_sub hn]
  push_cast
  ring

theorem tap_reflect (bs : List (ℝ × ℝ)) (win : ℕ → ℝ) (order n : ℕ) (hn : n ≤ order)
    (hw : win (order - n) = win n) : tap bs win (order + 1) (order - n) = tap bs win (order + 1) n := by
  unfold tap
  rw [pos_reflect order n hn, hw]
  simp only [mul_neg, sinc_neg]

/-- The bands of the code are those of the specification. -/
theorem pairs_alternate (N : ℝ) (z : Bool) (start : ℝ) (cut : List ℝ) :
    pairs ((if z then [start] else []) ++ cut ++ (if xor (cut.length % 2 == 1) z then [N] else [])) =
      alternate N z start cut := by
  induction cut generalizing z start with
  | nil => cases z <;> simp [pairs, alternate]
  | cons c r ih =>
    have hpar : ((r.length + 1) % 2 == 1) = !(r.length % 2 == 1) := by
      rcases Nat.mod_two_eq_zero_or_one r.length with h | h <;> simp [h, Nat.add_mod]
    cases z with
    | true =>
      have h := ih false c
      simp only [Bool.false_eq_true, if_false, List.nil_append, Bool.xor_false] at h
      simp only [if_true, List.length_cons, hpar, Bool.xor_true, Bool.not_not, List.cons_append, List.nil_append,
        pairs, alternate, h]
    | false =>
      have h := ih true c
      simp only [if_true, Bool.xor_true, List.cons_append, List.nil_append] at h
      simp only [Bool.false_eq_true, if_false, List.length_cons, hpar, Bool.xor_false, List.cons_append,
        List.nil_append, alternate, h]

theorem bands_eq (cut : List ℝ) (type : Pass) : bands cut type = passBands 1 type cut := by
  cases type <;> exact pairs_alternate 1 _ 0 cut

theorem alternate_div (N d : ℝ) (z : Bool) (start : ℝ) (cut : List ℝ) :
    alternate (N / d) z (start / d) (cut.map fun f => f / d) =
      (alternate N z start cut).map fun p => (p.1 / d, p.2 / d) := by
  induction cut generalizing z start with
  | nil => cases z <;> simp [alternate]
  | cons c r ih => cases z <;> simp [alternate, ih]

theorem passBands_div (N d : ℝ) (type : Pass) (cut : List ℝ) :
    passBands (N / d) type (cut.map fun f => f / d) = (passBands N type cut).map fun p => (p.1 / d, p.2 / d) := by
  have h := fun z => alternate_div N d z 0 cut
  simp only [zero_div] at h
  cases type <;> exact h _

/-- What a successful call returns. -/
theorem firFilter_some (order : ℕ) (freqs : List ℝ) (type : Pass) (fs : ℕ) (win : ℕ → ℝ) (b a : List ℝ)
    (h : firFilter order freqs type fs win = .ok (some (b, a))) :
    ∃ bs, bs = bands (freqs.map fun f => f / (0.5 * (fs : ℝ))) type ∧ scale bs win (order + 1) ≠ 0 ∧
      b = ((List.range (order + 1)).map fun n => tap bs win (order + 1) n / scale bs win (order + 1)) ∧ a = [1] ∧
      (∀ x ∈ freqs.map fun f => f / (0.5 * (fs : ℝ)), 0 < x ∧ x < 1) := by
  unfold firFilter firwin at h
  dsimp only at h
  split at h
  · simp [Except.map] at h
  split at h
  · simp [Except.map] at h
  rename_i h2
  split at h
  · simp [Except.map] at h
  split at h
  · simp [Except.map] at h
  split at h
  · simp [Except.map] at h
  split at h
  · simp [Except.map] at h
  split at h
  · simp [Except.map] at h
  rename_i hs
  simp only [Except.map, Option.map_some, Except.ok.injEq, Option.some.injEq, Prod.mk.injEq] at h
  refine ⟨_, rfl, hs, h.1.symm, h.2.symm, fun x hx => ?_⟩
  push Not at h2
  exact h2 x hx

theorem getD_taps (order n : ℕ) (g : ℕ → ℝ) (hn : n ≤ order) :
    ((List.range (order + 1)).map g).getD n 0 = g n := by
  simp [List.getD_eq_getElem?_getD, List.getElem?_range (by omega : n < order + 1)]

theorem sum_range_map (g : ℕ → ℝ) (n : ℕ) : ((List.range n).map g).sum = ∑ i ∈ Finset.range n, g i := by
  induction n with
  | zero => simp
  | succ n ih => rw [List.range_succ, List.map_append, List.sum_append, ih, Finset.sum_range_succ]; simp

/-- The response of symmetric taps. -/
theorem response_symmetric (order fs : ℕ) (g : ℕ → ℝ) (hg : ∀ n ≤ order, g (order - n) = g n) (f : ℝ) :
    response ((List.range (order + 1)).map g) fs f =
      Complex.exp (-Complex.I * ((2 * Real.pi * f / fs * (order / 2) : ℝ) : ℂ)) *
        ((∑ n ∈ Finset.range (order + 1), g n * Real.cos (2 * Real.pi * f / fs * pos (order + 1) n) : ℝ) : ℂ) := by
  set w := 2 * Real.pi * f / fs with hw
  have hsin : ∑ n ∈ Finset.range (order + 1), g n * Real.sin (w * pos (order + 1) n) = 0 := by
    have h := Finset.sum_range_reflect (fun n => g n * Real.sin (w * pos (order + 1) n)) (order + 1)
    have h2 : ∑ j ∈ Finset.range (order + 1), g (order + 1 - 1 - j) * Real.sin (w * pos (order + 1) (order + 1 - 1 - j)) =
        -∑ n ∈ Finset.range (order + 1), g n * Real.sin (w * pos (order + 1) n) := by
      rw [← Finset.sum_neg_distrib]
      refine Finset.sum_congr rfl fun j hj => ?_
      have hj' : j ≤ order := by
        have := Finset.mem_range.1 hj
        omega
      rw [show order + 1 - 1 - j = order - j by omega, hg j hj', pos_reflect order j hj', mul_neg, Real.sin_neg]
      ring
    linarith
  have hsum : response ((List.range (order + 1)).map g) fs f =
      Complex.exp (-Complex.I * ((w * (order / 2) : ℝ) : ℂ)) *
        ∑ n ∈ Finset.range (order + 1), (((g n * Real.cos (w * pos (order + 1) n) : ℝ) : ℂ) -
          Complex.I * ((g n * Real.sin (w * pos (order + 1) n) : ℝ) : ℂ)) := by
    unfold response
    rw [List.length_map, List.length_range, Finset.mul_sum]
    refine Finset.sum_congr rfl fun n hn => ?_
    have hn' : n ≤ order := by
      have := Finset.mem_range.1 hn
      omega
    rw [getD_taps order n g hn', ← hw]
    have he : -Complex.I * ((w * n : ℝ) : ℂ) = -Complex.I * ((w * (order / 2) : ℝ) : ℂ) +
        ((-(w * pos (order + 1) n) : ℝ) : ℂ) * Complex.I := by
      unfold pos
      push_cast
      ring
    rw [he, Complex.exp_add, Complex.exp_mul_I, ← Complex.ofReal_cos, ← Complex.ofReal_sin, Real.cos_neg, Real.sin_neg]
    push_cast
    ring
  rw [hsum, Finset.sum_sub_distrib, ← Finset.mul_sum, ← Complex.ofReal_sum, ← Complex.ofReal_sum, hsin]
  simp

/-- The tap of an ideal band. -/
theorem band_integral (l r p : ℝ) (fs : ℕ) (hfs : 0 < fs) :
    r / (0.5 * fs) * sinc (r / (0.5 * fs) * p) - l / (0.5 * fs) * sinc (l / (0.5 * fs) * p) =
      2 / fs * ∫ f in l..r, Real.cos (2 * Real.pi * f / fs * p) := by
  have h0 : (0 : ℝ) < fs := by exact_mod_cast hfs
  have key : ∀ t : ℝ, p ≠ 0 → t / (0.5 * fs) * sinc (t / (0.5 * fs) * p) =
      Real.sin (2 * Real.pi * p / fs * t) / (Real.pi * p) := by
    intro t hp
    unfold sinc
    by_cases ht : t = 0
    · simp [ht]
    · have hne : t / (0.5 * fs) * p ≠ 0 := by positivity
      rw [if_neg hne, show Real.pi * (t / (0.5 * fs) * p) = 2 * Real.pi * p / fs * t by field_simp; norm_num]
      have := Real.pi_pos.ne'
      field_simp
      norm_num
  by_cases hp : p = 0
  · subst hp
    simp only [mul_zero, Real.cos_zero, intervalIntegral.integral_const, smul_eq_mul, mul_one, sinc, if_true]
    field_simp
    ring
  · have hc : 2 * Real.pi * p / fs ≠ 0 := by
      have := Real.pi_pos.ne'
      positivity
    rw [key r hp, key l hp]
    have : ∀ f : ℝ, 2 * Real.pi * f / fs * p = 2 * Real.pi * p / fs * f := fun f => by ring
    simp only [this]
    rw [intervalIntegral.integral_comp_mul_left (fun x => Real.cos x) hc, integral_cos, smul_eq_mul]
    have := Real.pi_pos.ne'
    field_simp

/-! ### Theorems -/

/-- A filter is refused (ValueError) exactly if the edges do not increase strictly between 0 Hz and half of the
sampling rate, if their number does not fit the type, or if the filter should pass half of the sampling rate and
has an odd order. -/
theorem C157_refused (order : ℕ) (freqs : List ℝ) (type : Pass) (fs : ℕ) (hfs : 0 < fs) (win : ℕ → ℝ) :
    (¬ Valid order freqs type fs → firFilter order freqs type fs win = .error .valueError) ∧
    (Valid order freqs type fs → ∃ r, firFilter order freqs type fs win = .ok r) := by
  have h0 : (0 : ℝ) < fs := by exact_mod_cast hfs
  set c := freqs.map fun f => f / (0.5 * (fs : ℝ)) with hc
  have hlen : c.length = freqs.length := by simp [hc]
  have hbound : (¬ ∃ x ∈ c, x ≤ 0 ∨ 1 ≤ x) ↔ ∀ f ∈ freqs, 0 < f ∧ f < fs / 2 := by
    push Not
    simp only [hc, List.forall_mem_map]
    refine forall₂_congr fun f _ => ?_
    rw [div_lt_one (by positivity), div_pos_iff_of_pos_right (by positivity),
      show 0.5 * (fs : ℝ) = fs / 2 by ring]
  have hinc : increasing c ↔ freqs.Pairwise (· < ·) := by
    rw [increasing_iff, hc, List.pairwise_map]
    have : ∀ a b : ℝ, a / (0.5 * fs) < b / (0.5 * fs) ↔ a < b := fun a b =>
      div_lt_div_iff_of_pos_right (by positivity)
    simp only [this]
  have hny : passNyquist c.length type = true → (type = .lowpass ∨ type = .highpass → freqs.length = 1) →
      PassesNyquist type freqs.length := by
    intro h h1
    rw [hlen] at h
    unfold passNyquist at h
    unfold PassesNyquist
    cases type <;> simp [Pass.zero] at h h1 ⊢ <;> omega
  have hny' : PassesNyquist type freqs.length → (type = .lowpass ∨ type = .highpass → freqs.length = 1) →
      passNyquist c.length type = true := by
    intro h h1
    rw [hlen]
    unfold passNyquist
    unfold PassesNyquist at h
    cases type <;> simp [Pass.zero] at h h1 ⊢ <;> omega
  have hnil : c = [] ↔ freqs = [] := by simp [hc]
  unfold firFilter firwin
  dsimp only
  rw [← hc]
  constructor
  · intro h
    by_cases h1 : c = []
    · rw [if_pos h1]; rfl
    rw [if_neg h1]
    by_cases h2 : ∃ x ∈ c, x ≤ 0 ∨ 1 ≤ x
    · rw [if_pos h2]; rfl
    rw [if_neg h2]
    by_cases h3 : increasing c
    swap
    · rw [if_pos h3]; rfl
    rw [if_neg (not_not.2 h3)]
    by_cases h4 : (type = .lowpass ∨ type = .highpass) ∧ c.length ≠ 1
    · rw [if_pos h4]; rfl
    rw [if_neg h4]
    by_cases h5 : (type = .bandpass ∨ type = .bandstop) ∧ c.length ≤ 1
    · rw [if_pos h5]; rfl
    rw [if_neg h5]
    by_cases h6 : passNyquist c.length type = true ∧ (order + 1) % 2 = 0
    · rw [if_pos h6]; rfl
    exfalso
    apply h
    rw [hlen] at h4 h5
    refine ⟨hbound.1 h2, hinc.1 h3, ?_, fun hp => ?_⟩
    · cases type <;> simp at h4 h5 ⊢ <;> omega
    · by_contra hodd
      exact h6 ⟨hny' hp (fun ht => by
        by_contra hne
        exact h4 ⟨ht, hne⟩), by omega⟩
  · rintro ⟨h2, h3, h4, h5⟩
    have hl1 : type = .lowpass ∨ type = .highpass → freqs.length = 1 := by
      rintro (rfl | rfl) <;> exact h4
    have hl2 : type = .bandpass ∨ type = .bandstop → 2 ≤ freqs.length := by
      rintro (rfl | rfl) <;> exact h4
    have h1 : c ≠ [] := by
      intro h
      have := hnil.1 h
      subst this
      cases type <;> simp at h4
    rw [if_neg h1, if_neg (hbound.2 h2), if_neg (not_not.2 (hinc.2 h3)),
      if_neg (fun h => h.2 (hlen.trans (hl1 h.1))),
      if_neg (fun h => by have := hl2 h.1; have := h.2; omega),
      if_neg (fun h => by have := h5 (hny h.1 hl1); have := h.2; omega)]
    split
    · exact ⟨_, rfl⟩
    · exact ⟨_, rfl⟩

/-- The filter has `order + 1` taps and no recursive part. -/
theorem C157_taps (order : ℕ) (freqs : List ℝ) (type : Pass) (fs : ℕ) (win : ℕ → ℝ) (b a : List ℝ)
    (h : firFilter order freqs type fs win = .ok (some (b, a))) : b.length = order + 1 ∧ a = [1] := by
  obtain ⟨bs, -, -, rfl, rfl, -⟩ := firFilter_some order freqs type fs win b a h
  simp

/-- With a symmetric window the taps are symmetric and the filter has exactly linear phase: its response is a real
function times the response of a delay of `order / 2` samples. -/
theorem C157_linear_phase (order : ℕ) (freqs : List ℝ) (type : Pass) (fs : ℕ) (win : ℕ → ℝ)
    (hw : ∀ n ≤ order, win (order - n) = win n) (b a : List ℝ)
    (h : firFilter order freqs type fs win = .ok (some (b, a))) :
    (∀ n ≤ order, b.getD (order - n) 0 = b.getD n 0) ∧
    ∃ A : ℝ → ℝ, ∀ f, response b fs f =
      Complex.exp (-Complex.I * ((2 * Real.pi * f / fs * (order / 2) : ℝ) : ℂ)) * (A f : ℂ) := by
  obtain ⟨bs, -, -, rfl, -, -⟩ := firFilter_some order freqs type fs win b a h
  refine ⟨fun n hn => ?_, _, fun f => response_symmetric order fs _ (fun n hn => ?_) f⟩
  · rw [getD_taps order _ _ (by omega), getD_taps order _ _ hn, tap_reflect bs win order n hn (hw n hn)]
  · rw [tap_reflect bs win order n hn (hw n hn)]

/-- The gain is 1, with the phase of the delay of `order / 2` samples, at 0 Hz for low-pass and band-stop filters,
at half of the sampling rate for high-pass filters, and in the middle of the band for band-pass filters. -/
theorem C157_unity (order : ℕ) (freqs : List ℝ) (type : Pass) (fs : ℕ) (hfs : 0 < fs) (win : ℕ → ℝ)
    (hw : ∀ n ≤ order, win (order - n) = win n) (b a : List ℝ) (f : ℝ) (hf : Reference (fs / 2) type freqs f)
    (h : firFilter order freqs type fs win = .ok (some (b, a))) :
    response b fs f = Complex.exp (-Complex.I * ((2 * Real.pi * f / fs * (order / 2) : ℝ) : ℂ)) ∧
      ‖response b fs f‖ = 1 := by
  have h0 : (0 : ℝ) < fs := by exact_mod_cast hfs
  obtain ⟨bs, hbs, hs, rfl, -, hr⟩ := firFilter_some order freqs type fs win b a h
  have hfreq : 2 * f / fs = scaleFrequency bs := by
    cases hf with
    | low c =>
      rw [hbs]
      simp [bands, pairs, Pass.zero, passNyquist, scaleFrequency]
    | high c =>
      have h1 := hr (c / (0.5 * fs)) (by simp)
      rw [hbs]
      simp only [bands, pairs, Pass.zero, passNyquist, List.map_cons, List.map_nil, List.length_singleton,
        Nat.one_mod, beq_self_eq_true, Bool.xor_false, if_true, Bool.false_eq_true, if_false, List.nil_append,
        List.singleton_append, scaleFrequency]
      rw [if_neg h1.1.ne']
      field_simp
    | band a b more =>
      have h1 := hr (a / (0.5 * fs)) (by simp)
      have h2 := hr (b / (0.5 * fs)) (by simp)
      rw [hbs, bands_eq]
      simp only [passBands, alternate, List.map_cons, scaleFrequency]
      rw [if_neg h1.1.ne', if_neg h2.2.ne]
      field_simp
    | stop =>
      rw [hbs, bands_eq]
      cases freqs <;> simp [passBands, alternate, scaleFrequency]
  have hone : (∑ n ∈ Finset.range (order + 1), tap bs win (order + 1) n / scale bs win (order + 1) *
      Real.cos (2 * Real.pi * f / fs * pos (order + 1) n)) = 1 := by
    have : ∀ n, tap bs win (order + 1) n / scale bs win (order + 1) *
        Real.cos (2 * Real.pi * f / fs * pos (order + 1) n) =
        (tap bs win (order + 1) n * Real.cos (Real.pi * pos (order + 1) n * scaleFrequency bs)) /
          scale bs win (order + 1) := by
      intro n
      rw [← hfreq, show Real.pi * pos (order + 1) n * (2 * f / fs) = 2 * Real.pi * f / fs * pos (order + 1) n by ring]
      ring
    rw [Finset.sum_congr rfl fun n _ => this n, ← Finset.sum_div]
    have hsc : (∑ n ∈ Finset.range (order + 1),
        tap bs win (order + 1) n * Real.cos (Real.pi * pos (order + 1) n * scaleFrequency bs)) =
        scale bs win (order + 1) := by
      rw [scale, sum_range_map]
    rw [hsc, div_self hs]
  have hresp := response_symmetric order fs (fun n => tap bs win (order + 1) n / scale bs win (order + 1))
    (fun n hn => by rw [tap_reflect bs win order n hn (hw n hn)]) f
  rw [hone, Complex.ofReal_one, mul_one] at hresp
  refine ⟨hresp, ?_⟩
  rw [hresp, neg_mul, ← mul_neg, mul_comm, ← Complex.ofReal_neg, Complex.norm_exp_ofReal_mul_I]

/-- The taps are those of the ideal filter times the window and a constant factor: the integral of the cosine over
the bands that pass. -/
theorem C157_ideal (order : ℕ) (freqs : List ℝ) (type : Pass) (fs : ℕ) (hfs : 0 < fs) (win : ℕ → ℝ)
    (b a : List ℝ) (h : firFilter order freqs type fs win = .ok (some (b, a))) :
    ∃ K : ℝ, K ≠ 0 ∧ ∀ n ≤ order, b.getD n 0 =
      K * win n * ((passBands (fs / 2) type freqs).map fun p => ∫ f in p.1..p.2, Real.cos (2 * Real.pi * f / fs * (n - order / 2))).sum := by
  have h0 : (0 : ℝ) < fs := by exact_mod_cast hfs
  obtain ⟨bs, hbs, hs, rfl, -, hr⟩ := firFilter_some order freqs type fs win b a h
  refine ⟨2 / fs / scale bs win (order + 1), by positivity, fun n hn => ?_⟩
  rw [getD_taps order n _ hn]
  have hp : pos (order + 1) n = n - (order : ℝ) / 2 := by
    unfold pos
    push_cast
    ring
  have hB' : bs = (passBands (fs / 2) type freqs).map fun p => (p.1 / (0.5 * (fs : ℝ)), p.2 / (0.5 * (fs : ℝ))) := by
    have hN : (fs : ℝ) / 2 / (0.5 * fs) = 1 := by
      field_simp
      norm_num
    rw [hbs, bands_eq, ← passBands_div, hN]
  have ht : tap bs win (order + 1) n = 2 / fs * win n *
      ((passBands (fs / 2) type freqs).map fun p => ∫ f in p.1..p.2, Real.cos (2 * Real.pi * f / fs * (n - order / 2))).sum := by
    unfold tap
    rw [hB', List.map_map, hp]
    have : ∀ p : ℝ × ℝ, ((fun b : ℝ × ℝ => b.2 * sinc (b.2 * (n - (order : ℝ) / 2)) - b.1 * sinc (b.1 * (n - (order : ℝ) / 2))) ∘
        fun p : ℝ × ℝ => (p.1 / (0.5 * (fs : ℝ)), p.2 / (0.5 * (fs : ℝ)))) p =
        2 / fs * ∫ f in p.1..p.2, Real.cos (2 * Real.pi * f / fs * (n - order / 2)) := fun p =>
      band_integral p.1 p.2 _ fs hfs
    rw [List.map_congr_left fun p _ => this p, List.sum_map_mul_left]
    ring
  rw [ht]
  ring

/-- A filter of odd order has gain zero at half of the sampling rate. -/
theorem C157_null (order : ℕ) (ho : order % 2 = 1) (freqs : List ℝ) (type : Pass) (fs : ℕ) (hfs : 0 < fs)
    (win : ℕ → ℝ) (hw : ∀ n ≤ order, win (order - n) = win n) (b a : List ℝ)
    (h : firFilter order freqs type fs win = .ok (some (b, a))) : response b fs (fs / 2) = 0 := by
  have h0 : (0 : ℝ) < fs := by exact_mod_cast hfs
  obtain ⟨bs, -, -, rfl, -, -⟩ := firFilter_some order freqs type fs win b a h
  rw [response_symmetric order fs _ (fun n hn => by rw [tap_reflect bs win order n hn (hw n hn)])]
  rw [Finset.sum_eq_zero, Complex.ofReal_zero, mul_zero]
  intro n _
  obtain ⟨k, rfl⟩ : ∃ k, order = 2 * k + 1 := ⟨order / 2, by omega⟩
  have hcos : Real.cos (2 * Real.pi * (fs / 2) / fs * pos (2 * k + 1 + 1) n) = 0 := by
    rw [Real.cos_eq_zero_iff]
    refine ⟨(n : ℤ) - k - 1, ?_⟩
    unfold pos
    push_cast
    field_simp
    ring
  rw [hcos, mul_zero]

/-- A low-pass filter whose main lobe holds all taps, with a window that is not negative and positive at some tap,
is defined. -/
theorem C157_lowpass_defined (order : ℕ) (c : ℝ) (fs : ℕ) (hfs : 0 < fs) (hc : 0 < c) (hc' : c < fs / 2)
    (hlobe : c * order < fs) (win : ℕ → ℝ) (hw : ∀ n ≤ order, 0 ≤ win n) (hp : ∃ n ≤ order, 0 < win n) :
    ∃ b, firFilter order [c] .lowpass fs win = .ok (some (b, [1])) ∧ (∀ n ≤ order, 0 ≤ b.getD n 0) ∧ b.sum = 1 := by
  have h0 : (0 : ℝ) < fs := by exact_mod_cast hfs
  set r := c / (0.5 * (fs : ℝ)) with hr
  have hr0 : 0 < r := by positivity
  have hr1 : r < 1 := by
    rw [hr, div_lt_one (by positivity)]
    linarith
  have hsinc : ∀ n ≤ order, 0 < sinc (r * pos (order + 1) n) := by
    intro n hn
    have hn' : (n : ℝ) ≤ order := by exact_mod_cast hn
    have hab : |r * pos (order + 1) n| < 1 := by
      rw [abs_mul, abs_of_pos hr0]
      have : |pos (order + 1) n| ≤ order / 2 := by
        unfold pos
        rw [abs_le]
        push_cast
        have : (0 : ℝ) ≤ n := Nat.cast_nonneg n
        constructor <;> linarith
      calc r * |pos (order + 1) n| ≤ r * (order / 2) := by gcongr
        _ = c * order / fs := by
            rw [hr]
            field_simp
            ring
        _ < 1 := by rwa [div_lt_one h0]
    have hpos : ∀ t : ℝ, 0 < t → t < 1 → 0 < sinc t := by
      intro t h1 h2
      unfold sinc
      rw [if_neg h1.ne']
      have := Real.pi_pos
      exact div_pos (Real.sin_pos_of_pos_of_lt_pi (by positivity) (by nlinarith)) (by positivity)
    rcases lt_trichotomy (r * pos (order + 1) n) 0 with h | h | h
    · rw [← sinc_neg]
      exact hpos _ (by linarith) (by linarith [(abs_lt.1 hab).1])
    · rw [h]
      simp [sinc]
    · exact hpos _ h (abs_lt.1 hab).2
  have hbs : bands [r] .lowpass = [(0, r)] := by simp [bands, pairs, Pass.zero, passNyquist]
  have htap : ∀ n, tap [(0, r)] win (order + 1) n = r * sinc (r * pos (order + 1) n) * win n := by
    intro n
    simp [tap]
  have hs : scale [(0, r)] win (order + 1) = ∑ n ∈ Finset.range (order + 1), tap [(0, r)] win (order + 1) n := by
    rw [scale, sum_range_map]
    simp [scaleFrequency]
  have hnn : ∀ n ≤ order, 0 ≤ tap [(0, r)] win (order + 1) n := fun n hn => by
    rw [htap]
    exact mul_nonneg (mul_nonneg hr0.le (hsinc n hn).le) (hw n hn)
  have hs0 : 0 < scale [(0, r)] win (order + 1) := by
    rw [hs]
    obtain ⟨n, hn, hpn⟩ := hp
    refine Finset.sum_pos' (fun i hi => hnn i (by have := Finset.mem_range.1 hi; omega))
      ⟨n, Finset.mem_range.2 (by omega), ?_⟩
    rw [htap]
    exact mul_pos (mul_pos hr0 (hsinc n hn)) hpn
  refine ⟨(List.range (order + 1)).map fun n => tap [(0, r)] win (order + 1) n / scale [(0, r)] win (order + 1),
    ?_, fun n hn => ?_, ?_⟩
  · unfold firFilter firwin
    simp only [List.map_cons, List.map_nil, ← hr, hbs]
    rw [if_neg (by simp), if_neg (by simp [hr0, hr1]), if_neg (by simp [increasing]), if_neg (by simp),
      if_neg (by simp), if_neg (by simp [passNyquist, Pass.zero]), if_neg hs0.ne']
    rfl
  · rw [getD_taps order n _ hn]
    exact div_nonneg (hnn n hn) hs0.le
  · rw [sum_range_map, ← Finset.sum_div, ← hs, div_self hs0.ne']

/-- **Disagreement.** A symmetric Hann window of two samples is zero, and a low-pass filter of order 1 with it is
`nan`. -/
theorem C157_hann_nan (c : ℝ) (fs : ℕ) (hfs : 0 < fs) (hc : 0 < c) (hc' : c < fs / 2) :
    firFilter 1 [c] .lowpass fs (fun n => 0.5 - 0.5 * Real.cos (2 * Real.pi * n / 1)) = .ok none := by
  have h0 : (0 : ℝ) < fs := by exact_mod_cast hfs
  have hr0 : 0 < c / (0.5 * (fs : ℝ)) := by positivity
  have hr1 : c / (0.5 * (fs : ℝ)) < 1 := by
    rw [div_lt_one (by positivity)]
    linarith
  have hs : scale (bands [c / (0.5 * (fs : ℝ))] .lowpass)
      (fun n => 0.5 - 0.5 * Real.cos (2 * Real.pi * n / 1)) (1 + 1) = 0 := by
    rw [scale, sum_range_map]
    refine Finset.sum_eq_zero fun n hn => ?_
    have : n = 0 ∨ n = 1 := by
      have := Finset.mem_range.1 hn
      omega
    rcases this with rfl | rfl <;> simp [tap]
  unfold firFilter firwin
  simp only [List.map_cons, List.map_nil]
  rw [if_neg (by simp), if_neg (by simp only [List.mem_singleton, exists_eq_left]; push Not; exact ⟨hr0, hr1⟩),
    if_neg (by simp [increasing]), if_neg (by simp), if_neg (by simp), if_neg (by simp [passNyquist, Pass.zero]),
    if_pos hs]
  rfl

/-- The hypotheses are met by a low-pass filter of order 6 at 1 kHz for 48 kHz with a rectangular window; orders
that are odd are valid, too. -/
example : (0 : ℝ) < 1000 ∧ (1000 : ℝ) < (48000 : ℕ) / 2 ∧ (1000 : ℝ) * (6 : ℕ) < (48000 : ℕ) ∧
    (∀ n ≤ 6, (fun _ : ℕ => (1 : ℝ)) (6 - n) = (fun _ : ℕ => (1 : ℝ)) n) ∧
    Valid 7 [1000] .lowpass 48000 ∧ Valid 6 [100, 1000] .bandstop 48000 ∧ ¬ Valid 7 [1000] .highpass 48000 := by
  refine ⟨by norm_num, by norm_num, by norm_num, fun _ _ => rfl, ?_, ?_, ?_⟩
  · refine ⟨?_, by simp, by simp, ?_⟩
    · norm_num
    · simp [PassesNyquist]
  · refine ⟨?_, ?_, ?_, ?_⟩ <;> norm_num
  · rintro ⟨-, -, -, h⟩
    have := h (.inl rfl)
    norm_num at this

end Verif.FirDesign
