import Verif.Model.SmoothedDifference
import Verif.Props.C121
import Verif.Props.C104
import Verif.Props.C146
import Verif.Lemmas.Framing

/-!
# C121: the difference of smoothed spectra
-/

namespace Verif.SpectralDifference

open Spectrum Complex OctaveSmoothing SpecConv

theorem smoothReal_range (beta : Option ℝ) (fraction N : ℕ) (v : ℕ → ℝ) (hN : 2 ≤ N) :
    ∃ r, smoothReal beta fraction N v = .ok r ∧
      ∀ lo hi, (∀ k < N, lo ≤ v k ∧ v k ≤ hi) → ∀ k < N, lo ≤ r k ∧ r k ≤ hi := by
  obtain ⟨r, w', h1, h2, h3⟩ := C104_range ((List.range N).map v) beta fraction hann C104_hann
    (by intro h; have := congrArg List.length h; simp at this; omega) (fun _ => by simpa using hN)
  unfold smoothReal
  rw [h1]
  refine ⟨_, rfl, fun lo hi h k hk => ?_⟩
  have hk' : k < r.length := by rw [h2]; simpa using hk
  rw [List.getD_eq_getElem _ _ hk']
  refine h3 lo hi (fun t ht => ?_) _ (List.getElem_mem _)
  obtain ⟨i, hi', rfl⟩ := List.mem_map.1 ht
  exact h i (List.mem_range.1 hi')

theorem two_le_of_spacing (f : List ℝ) (h : spacing f ≠ .other) : 2 ≤ f.length := by
  by_contra hc
  apply h
  unfold spacing
  dsimp only
  rw [if_pos (by omega)]

/-- A channel of magnitudes after smoothing: real, between the bounds of the channel. -/
theorem smoothSpec_magnitude (fraction : ℕ) (s : Spec) (hs : spacing s.freqs ≠ .other) (hm : s.isMagnitude = true) :
    ∃ t, smoothSpec fraction s = .ok t ∧ t.freqs = s.freqs ∧ t.channels = s.channels ∧ t.isMagnitude = true ∧
      ∀ c < s.channels, ∃ m : ℕ → ℝ, (∀ k, t.x c k = (m k : ℂ)) ∧
        ∀ lo hi, (∀ k < s.freqs.length, lo ≤ (s.x c k).re ∧ (s.x c k).re ≤ hi) →
          ∀ k < s.freqs.length, lo ≤ m k ∧ m k ≤ hi := by
  have h2 := two_le_of_spacing _ hs
  choose r hr hb using fun c => smoothReal_range (octaves s.freqs) fraction s.freqs.length (fun k => (s.x c k).re) h2
  have hd : ∀ c, smoothData (octaves s.freqs) fraction s.freqs.length s.isMagnitude (s.x c) =
      .ok fun k => (r c k : ℂ) := by
    intro c
    unfold smoothData
    rw [if_pos hm, hr c]
  unfold smoothSpec
  rw [if_neg hs, Framing.mapM_ok _ (fun c => fun k => (r c k : ℂ)) _ (fun c _ => hd c)]
  refine ⟨_, rfl, rfl, rfl, hm, fun c hc => ⟨r c, fun k => ?_, hb c⟩⟩
  simp [List.getD_eq_getElem?_getD, List.getElem?_range hc]

/-- **C121**: with energy normalization gains of the channels do not matter for any smoothing. -/
theorem C121_smoothed_gain (fraction : ℕ) (s1 s2 : Spec) (a b : ℕ → ℝ) (ha : ∀ c, 0 < a c) (hb : ∀ c, 0 < b c)
    (complex : Bool) (dr : Option ℝ) (h1 : s1.freqs ≠ []) (h2 : s2.freqs ≠ []) :
    smoothedDifference fraction (gain a s1) (gain b s2) true complex dr =
      smoothedDifference fraction s1 s2 true complex dr := by
  unfold smoothedDifference normalizeSpec
  rw [C121_gain s1 s2 a b ha hb complex dr h1 h2, normalized_gain a s1 ha h1, normalized_gain b s2 hb h2]
  rfl

/-- What the difference is for magnitudes without normalization. -/
theorem smoothed_plain (fraction : ℕ) (h0 : fraction ≠ 0) (s1 s2 t1 t2 : Spec) (complex : Bool) (dr : Option ℝ)
    (hch : s1.channels = s2.channels) (hc : complex = false) (h1 : smoothSpec fraction s1 = .ok t1)
    (h2 : smoothSpec fraction s2 = .ok t2) :
    smoothedDifference fraction s1 s2 false complex dr = spectralDifference t1 t2 false complex dr := by
  have hn : ∀ s, normalizeSpec false s = .ok s := by
    intro s
    unfold normalizeSpec normalized
    simp
  unfold smoothedDifference
  rw [if_neg h0, if_neg (not_not.2 hch), if_neg (by simp [hc]), if_neg (by simp [hc]), hn, hn]
  dsimp only
  rw [h1]
  dsimp only
  rw [h2]

/-- **C121**: magnitudes between `lo1` and `hi1` divided by magnitudes between `lo2 > 0` and `hi2`, smoothed or not,
differ by a factor between `lo1 / hi2` and `hi1 / lo2` in each bin. -/
theorem C121_smoothed_bounds (fraction : ℕ) (s1 s2 : Spec) (h : Same s1 s2) (hs : spacing s1.freqs ≠ .other)
    (hm1 : s1.isMagnitude = true) (hm2 : s2.isMagnitude = true) (c : ℕ) (hc : c < s1.channels)
    (hr1 : ∀ c < s1.channels, ∀ k < s1.freqs.length, ∃ u : ℝ, s1.x c k = u)
    (hr2 : ∀ c < s1.channels, ∀ k < s1.freqs.length, ∃ u : ℝ, 0 < u ∧ s2.x c k = u) (lo1 hi1 lo2 hi2 : ℝ)
    (h01 : 0 ≤ lo1) (h02 : 0 < lo2)
    (hb1 : ∀ k < s1.freqs.length, lo1 ≤ (s1.x c k).re ∧ (s1.x c k).re ≤ hi1)
    (hb2 : ∀ k < s1.freqs.length, lo2 ≤ (s2.x c k).re ∧ (s2.x c k).re ≤ hi2) :
    ∃ out, smoothedDifference fraction s1 s2 false false none = .ok out ∧
      ∀ k < s1.freqs.length, ∃ q : ℝ, out c k = some (q : ℂ) ∧ lo1 / hi2 ≤ q ∧ q ≤ hi1 / lo2 := by
  have hq : ∀ a b : ℝ, lo1 ≤ a → a ≤ hi1 → lo2 ≤ b → b ≤ hi2 → lo1 / hi2 ≤ a / b ∧ a / b ≤ hi1 / lo2 := by
    intro a b ha1 ha2 hb1 hb2
    have hb : 0 < b := lt_of_lt_of_le h02 hb1
    exact ⟨div_le_div₀ (le_trans h01 ha1) ha1 hb hb2, div_le_div₀ (le_trans (le_trans h01 ha1) ha2) ha2 h02 hb1⟩
  by_cases h0 : fraction = 0
  · unfold smoothedDifference
    rw [if_pos h0]
    obtain ⟨out, e1, e2⟩ := C121_quotient s1 s2 h (fun _ c hc k hk hz => by
      obtain ⟨u, hu, he⟩ := hr2 c hc k hk
      rw [he] at hz
      exact absurd (by exact_mod_cast hz) hu.ne')
    refine ⟨out, e1, fun k hk => ?_⟩
    obtain ⟨u, hu, he⟩ := hr2 c hc k hk
    obtain ⟨v, hv⟩ := hr1 c hc k hk
    refine ⟨v / u, ?_, ?_⟩
    · rw [e2 c hc k hk (by rw [he]; exact_mod_cast hu.ne'), he, hv]
      simp [abs_of_pos hu]
    · have a1 := hb1 k hk
      have a2 := hb2 k hk
      rw [hv, ofReal_re] at a1
      rw [he, ofReal_re] at a2
      exact hq v u a1.1 a1.2 a2.1 a2.2
  · have hf2 : s2.freqs = s1.freqs := h.freqs
    obtain ⟨t1, a1, a2, a3, a4, a5⟩ := smoothSpec_magnitude fraction s1 hs hm1
    obtain ⟨t2, b1, b2, b3, b4, b5⟩ := smoothSpec_magnitude fraction s2 (by rw [hf2]; exact hs) hm2
    rw [smoothed_plain fraction h0 s1 s2 t1 t2 false none h.channels rfl a1 b1]
    have hS : Same t1 t2 := ⟨by rw [a2, b2, hf2], by rw [a3, b3, h.channels], by rw [a2]; exact h.ascending,
      by rw [a2]; exact h.bins⟩
    -- the smoothed divisor is positive
    have hpos : ∀ c < s1.channels, ∀ k < s1.freqs.length, ∃ u : ℝ, 0 < u ∧ t2.x c k = u := by
      intro c hc k hk
      obtain ⟨m, hm, hb⟩ := b5 c (by rw [← h.channels]; exact hc)
      rw [hf2] at hb
      have hne : (Finset.range s1.freqs.length).Nonempty := ⟨0, Finset.mem_range.2 (by have := h.bins; omega)⟩
      obtain ⟨j, hj, hjm⟩ := Finset.exists_min_image (Finset.range s1.freqs.length) (fun k => (s2.x c k).re) hne
      obtain ⟨i, hi, him⟩ := Finset.exists_max_image (Finset.range s1.freqs.length) (fun k => (s2.x c k).re) hne
      have := hb _ _ (fun k hk => ⟨hjm k (Finset.mem_range.2 hk), him k (Finset.mem_range.2 hk)⟩) k hk
      obtain ⟨u, hu, he⟩ := hr2 c hc j (Finset.mem_range.1 hj)
      refine ⟨m k, lt_of_lt_of_le hu ?_, hm k⟩
      rw [he, ofReal_re] at this
      exact this.1
    obtain ⟨out, e1, e2⟩ := C121_quotient t1 t2 hS (fun _ c hc k hk hz => by
      obtain ⟨u, hu, he⟩ := hpos c (by rw [← a3]; exact hc) k (by rw [← a2]; exact hk)
      rw [he] at hz
      exact absurd (by exact_mod_cast hz) hu.ne')
    refine ⟨out, e1, fun k hk => ?_⟩
    obtain ⟨m1, hm1', hbd1⟩ := a5 c hc
    obtain ⟨m2, hm2', hbd2⟩ := b5 c (by rw [← h.channels]; exact hc)
    rw [hf2] at hbd2
    have x1 := hbd1 lo1 hi1 hb1 k hk
    have x2 := hbd2 lo2 hi2 hb2 k hk
    have hp : 0 < m2 k := lt_of_lt_of_le h02 x2.1
    refine ⟨m1 k / m2 k, ?_, hq _ _ x1.1 x1.2 x2.1 x2.2⟩
    rw [e2 c (by rw [a3]; exact hc) k (by rw [a2]; exact hk) (by rw [hm2']; exact_mod_cast hp.ne'), hm1', hm2']
    simp [abs_of_pos hp]

/-- **C121**: positive magnitudes differ from themselves by the factor 1 in every bin, for every smoothing. -/
theorem C121_smoothed_self (fraction : ℕ) (s : Spec) (hf : Ascending s.freqs) (hs : spacing s.freqs ≠ .other)
    (hm : s.isMagnitude = true) (hr : ∀ c < s.channels, ∀ k < s.freqs.length, ∃ u : ℝ, 0 < u ∧ s.x c k = u) :
    ∃ out, smoothedDifference fraction s s false false none = .ok out ∧
      ∀ c < s.channels, ∀ k < s.freqs.length, out c k = some 1 := by
  have h2 := two_le_of_spacing _ hs
  have hS : Same s s := ⟨rfl, rfl, hf, h2⟩
  by_cases h0 : fraction = 0
  · unfold smoothedDifference
    rw [if_pos h0]
    obtain ⟨out, e1, e2⟩ := C121_quotient s s hS (fun _ c hc k hk hz => by
      obtain ⟨u, hu, he⟩ := hr c hc k hk
      rw [he] at hz
      exact absurd (by exact_mod_cast hz) hu.ne')
    refine ⟨out, e1, fun c hc k hk => ?_⟩
    obtain ⟨u, hu, he⟩ := hr c hc k hk
    rw [e2 c hc k hk (by rw [he]; exact_mod_cast hu.ne'), he]
    have : (u : ℂ) ≠ 0 := by exact_mod_cast hu.ne'
    simp [abs_of_pos hu, this]
  · obtain ⟨t, a1, a2, a3, a4, a5⟩ := smoothSpec_magnitude fraction s hs hm
    rw [smoothed_plain fraction h0 s s t t false none rfl rfl a1 a1]
    have hpos : ∀ c < s.channels, ∀ k < s.freqs.length, ∃ u : ℝ, 0 < u ∧ t.x c k = u := by
      intro c hc k hk
      obtain ⟨m, hm, hb⟩ := a5 c hc
      have hne : (Finset.range s.freqs.length).Nonempty := ⟨0, Finset.mem_range.2 (by omega)⟩
      obtain ⟨j, hj, hjm⟩ := Finset.exists_min_image (Finset.range s.freqs.length) (fun k => (s.x c k).re) hne
      obtain ⟨i, hi, him⟩ := Finset.exists_max_image (Finset.range s.freqs.length) (fun k => (s.x c k).re) hne
      have := hb _ _ (fun k hk => ⟨hjm k (Finset.mem_range.2 hk), him k (Finset.mem_range.2 hk)⟩) k hk
      obtain ⟨u, hu, he⟩ := hr c hc j (Finset.mem_range.1 hj)
      refine ⟨m k, lt_of_lt_of_le hu ?_, hm k⟩
      rw [he, ofReal_re] at this
      exact this.1
    obtain ⟨out, e1, e2⟩ := C121_quotient t t ⟨rfl, rfl, by rw [a2]; exact hf, by rw [a2]; exact h2⟩
      (fun _ c hc k hk hz => by
        obtain ⟨u, hu, he⟩ := hpos c (by rw [← a3]; exact hc) k (by rw [← a2]; exact hk)
        rw [he] at hz
        exact absurd (by exact_mod_cast hz) hu.ne')
    refine ⟨out, e1, fun c hc k hk => ?_⟩
    obtain ⟨u, hu, he⟩ := hpos c hc k hk
    rw [e2 c (by rw [a3]; exact hc) k (by rw [a2]; exact hk) (by rw [he]; exact_mod_cast hu.ne'), he]
    have : (u : ℂ) ≠ 0 := by exact_mod_cast hu.ne'
    simp [abs_of_pos hu, this]

/-- Smoothing is refused with TypeError if the frequencies of the first spectrum are neither linear nor logarithmic, and the
difference with different numbers of channels or of magnitudes as complex data as without smoothing. -/
theorem C121_smoothed_rejects (fraction : ℕ) (s1 s2 : Spec) (norm : Bool) (dr : Option ℝ) :
    (fraction ≠ 0 → s1.channels = s2.channels → spacing s1.freqs = .other →
      smoothedDifference fraction s1 s2 false false dr = .error .typeError) ∧
    (s1.channels ≠ s2.channels → ∀ complex,
      smoothedDifference fraction s1 s2 norm complex dr = .error .assertionError) ∧
    (s1.isMagnitude = true ∨ s2.isMagnitude = true →
      smoothedDifference fraction s1 s2 norm true dr = .error .assertionError) := by
  refine ⟨fun h0 hch hs => ?_, fun h complex => ?_, fun h => ?_⟩
  · have hn : ∀ s, normalizeSpec false s = .ok s := by
      intro s
      unfold normalizeSpec normalized
      simp
    unfold smoothedDifference
    rw [if_neg h0, if_neg (not_not.2 hch), if_neg (by simp), if_neg (by simp), hn, hn]
    dsimp only
    have : smoothSpec fraction s1 = .error .typeError := by
      unfold smoothSpec
      rw [if_pos hs]
    rw [this]
  · unfold smoothedDifference
    rw [(C121_rejects s1 s2 norm dr).1 h complex, if_pos h]
    split_ifs <;> rfl
  · unfold smoothedDifference
    rw [(C121_rejects s1 s2 norm dr).2 h]
    split_ifs with c1 c2 c3 c4
    · rfl
    · rfl
    · rfl
    · rfl
    · rcases h with h | h
      · exact absurd ⟨rfl, h⟩ c3
      · exact absurd ⟨rfl, h⟩ c4

/-- Three equidistant frequencies. -/
example : ∃ out, smoothedDifference 3 ⟨[0, 100, 200], 1, fun _ k => ((k + 1 : ℕ) : ℝ), true⟩
    ⟨[0, 100, 200], 1, fun _ k => ((k + 1 : ℕ) : ℝ), true⟩ false false none = .ok out ∧
    ∀ c < 1, ∀ k < 3, out c k = some 1 := by
  refine C121_smoothed_self 3 ⟨[0, 100, 200], 1, fun _ k => ((k + 1 : ℕ) : ℝ), true⟩ ?_ ?_ rfl
    fun c _ k _ => ⟨((k + 1 : ℕ) : ℝ), by positivity, rfl⟩
  · intro i j hij hj
    simp only [List.length_cons, List.length_nil] at hj
    interval_cases j <;> interval_cases i <;> norm_num
  · rw [SpecObj.C146_spacing_linear [0, 100, 200] (by simp) 100]
    · decide
    · intro i hi
      simp only [List.length_cons, List.length_nil] at hi
      interval_cases i <;> simp
      norm_num

end Verif.SpectralDifference
