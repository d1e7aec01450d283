import Verif.Props.C128

/-!
# C128, continued: filtering a multiband signal

Band `n` is filtered by filter `n`.
-/

set_option linter.unusedSectionVars false

namespace Verif.Multiband

open SignalData Bank LFilter

variable {K : Type} [Field K] [LinearOrder K] [IsStrictOrderedRing K]

/-- Everything has one sampling rate, or the rates of bands and filters agree one by one. -/
def RatesAgree (B : FBank K) (m : MBS K) : Prop :=
  m.bands ≠ [] ∧
  ((∃ r, m.same = true ∧ B.same = true ∧ (∀ b ∈ m.bands, b.rate = r) ∧ (∀ f ∈ B.filters, f.rate = r) ∧
      B.filters ≠ []) ∨
    (m.same = false ∧ B.same = false ∧ B.filters.map RFilt.rate = m.bands.map Band.rate))

theorem reported_agree (B : FBank K) (m : MBS K) (h : RatesAgree B m) :
    ∃ r, reported m.same (m.bands.map Band.rate) = some r ∧
      reported B.same (B.filters.map RFilt.rate) = some r := by
  obtain ⟨hne, ⟨r, h1, h2, h3, h4, h5⟩ | ⟨h1, h2, h3⟩⟩ := h
  · obtain ⟨b, l, hb⟩ := List.exists_cons_of_ne_nil hne
    obtain ⟨f, l', hf⟩ := List.exists_cons_of_ne_nil h5
    refine ⟨.one r, ?_, ?_⟩
    · rw [h1, hb, List.map_cons, reported, h3 b (by rw [hb]; simp)]
      rfl
    · rw [h2, hf, List.map_cons, reported, h4 f (by rw [hf]; simp)]
      rfl
  · rw [h1, h2, h3]
    obtain ⟨b, l, hb⟩ := List.exists_cons_of_ne_nil hne
    exact ⟨_, by rw [hb, List.map_cons]; rfl, by rw [hb, List.map_cons]; rfl⟩

theorem filterMultiband_eq (B : FBank K) (m : MBS K) (h : RatesAgree B m) :
    filterMultiband B m =
      match filterLoop B.filters m.bands with
      | .error e => .error e
      | .ok bands => .ok ⟨m.same, bands⟩ := by
  obtain ⟨r, h1, h2⟩ := reported_agree B m h
  unfold filterMultiband
  rw [h1, h2]
  simp only [if_true]
  cases filterLoop B.filters m.bands <;> rfl

theorem rates_pair (B : FBank K) (m : MBS K) (h : RatesAgree B m) (n : ℕ)
    (hb : n < m.bands.length) (hf : n < B.filters.length) : B.filters[n].rate = m.bands[n].rate := by
  obtain ⟨hne, ⟨r, h1, h2, h3, h4, h5⟩ | ⟨h1, h2, h3⟩⟩ := h
  · rw [h3 _ (List.getElem_mem hb), h4 _ (List.getElem_mem hf)]
  · have h4 : (B.filters.map RFilt.rate)[n]? = (m.bands.map Band.rate)[n]? := by rw [h3]
    simpa [List.getElem?_eq_getElem hb, List.getElem?_eq_getElem hf] using h4

theorem loop_ok : ∀ (fs : List (RFilt K)) (bs : List (Band K)), bs.length ≤ fs.length →
    (∀ n (hb : n < bs.length) (hf : n < fs.length), fs[n].rate = bs[n].rate) →
    (∀ f ∈ fs, f.filt.Proper) → (∀ b ∈ bs, Shaped b.sig ∧ b.sig.constrain = false) →
    ∃ ts, filterLoop fs bs = .ok ts ∧ ts.length = bs.length ∧
      ∀ n (hb : n < bs.length) (hf : n < fs.length) (ht : n < ts.length),
        filterSignal fs[n].filt bs[n].sig = .ok ts[n].sig ∧ ts[n].rate = bs[n].rate ∧
        ts[n].sig.HasShape bs[n].sig.re.rows bs[n].sig.re.cols ∧
        ∀ c < bs[n].sig.re.cols,
          AgreeUpTo bs[n].sig.re.rows (chanZ ts[n].sig c) (fs[n].filt.H * chanZ bs[n].sig c)
  | fs, [], _, _, _, _ => ⟨[], by cases fs <;> rfl, rfl, fun n hb => absurd hb (by simp)⟩
  | [], b :: bs, h, _, _, _ => by simp at h
  | f :: fs, b :: bs, hl, hr, hF, hB => by
    obtain ⟨hs, hcon⟩ := hB b (by simp)
    obtain ⟨t, ht, hshape, -, -, hval⟩ := filterSignal_ok f.filt (hF f (by simp)) b.sig hs hcon
    obtain ⟨ts, hts, hlen, hall⟩ := loop_ok fs bs (by simpa using hl)
      (fun n hb hf => hr (n + 1) (by simpa using hb) (by simpa using hf))
      (fun g hg => hF g (by simp [hg])) (fun a ha => hB a (by simp [ha]))
    have hfb : filterBand f b = .ok ⟨b.rate, t⟩ := by
      unfold filterBand
      rw [if_pos (by exact hr 0 (by simp) (by simp)), ht]
    refine ⟨⟨b.rate, t⟩ :: ts, ?_, by simp [hlen], fun n hb hf hn => ?_⟩
    · rw [filterLoop, hfb]
      simp only [hts]
    · cases n with
      | zero => exact ⟨ht, rfl, hshape, hval⟩
      | succ n =>
        exact hall n (by simpa using hb) (by simpa using hf) (by simpa using hn)

/-- With at least as many filters as bands the result has the same bands, each of the same
rate and shape; every channel of band `n` is the channel of band `n` of the input multiplied by
the transfer function of filter `n`, and by no other. -/
theorem C128_filter (B : FBank K) (m : MBS K) (h : RatesAgree B m)
    (henough : m.bands.length ≤ B.filters.length) (hF : ∀ f ∈ B.filters, f.filt.Proper)
    (hB : ∀ b ∈ m.bands, Shaped b.sig ∧ b.sig.constrain = false) :
    ∃ m', filterMultiband B m = .ok m' ∧ m'.same = m.same ∧ m'.bands.length = m.bands.length ∧
      ∀ n (hb : n < m.bands.length) (hf : n < B.filters.length) (hn : n < m'.bands.length),
        m'.bands[n].rate = m.bands[n].rate ∧
        m'.bands[n].sig.HasShape m.bands[n].sig.re.rows m.bands[n].sig.re.cols ∧
        ∀ c < m.bands[n].sig.re.cols, AgreeUpTo m.bands[n].sig.re.rows
          (chanZ m'.bands[n].sig c) (B.filters[n].filt.H * chanZ m.bands[n].sig c) := by
  obtain ⟨ts, hts, hlen, hall⟩ := loop_ok B.filters m.bands henough
    (fun n hb hf => rates_pair B m h n hb hf) hF hB
  refine ⟨⟨m.same, ts⟩, ?_, rfl, hlen, fun n hb hf hn => (hall n hb hf hn).2⟩
  rw [filterMultiband_eq B m h, hts]

theorem loop_few : ∀ (fs : List (RFilt K)) (bs : List (Band K)), fs.length < bs.length →
    (∀ n (hb : n < bs.length) (hf : n < fs.length), fs[n].rate = bs[n].rate) →
    (∀ f ∈ fs, f.filt.Proper) → (∀ b ∈ bs, Shaped b.sig ∧ b.sig.constrain = false) →
    filterLoop fs bs = .error .indexError
  | fs, [], h, _, _, _ => by simp at h
  | [], b :: bs, _, _, _, _ => rfl
  | f :: fs, b :: bs, hl, hr, hF, hB => by
    obtain ⟨hs, hcon⟩ := hB b (by simp)
    obtain ⟨t, ht, -⟩ := filterSignal_ok f.filt (hF f (by simp)) b.sig hs hcon
    have hfb : filterBand f b = .ok ⟨b.rate, t⟩ := by
      unfold filterBand
      rw [if_pos (by exact hr 0 (by simp) (by simp)), ht]
    rw [filterLoop, hfb]
    simp only [loop_few fs bs (by simpa using hl)
      (fun n hb hf => hr (n + 1) (by simpa using hb) (by simpa using hf))
      (fun g hg => hF g (by simp [hg])) (fun a ha => hB a (by simp [ha]))]

/-- Fewer filters than bands: IndexError. -/
theorem C128_filter_few (B : FBank K) (m : MBS K) (h : RatesAgree B m)
    (hfew : B.filters.length < m.bands.length) (hF : ∀ f ∈ B.filters, f.filt.Proper)
    (hB : ∀ b ∈ m.bands, Shaped b.sig ∧ b.sig.constrain = false) :
    filterMultiband B m = .error .indexError := by
  rw [filterMultiband_eq B m h, loop_few B.filters m.bands hfew
    (fun n hb hf => rates_pair B m h n hb hf) hF hB]

theorem loop_take : ∀ (fs : List (RFilt K)) (bs : List (Band K)),
    filterLoop fs bs = filterLoop (fs.take bs.length) bs
  | fs, [] => by cases fs <;> rfl
  | [], b :: bs => rfl
  | f :: fs, b :: bs => by
    rw [List.length_cons, List.take_succ_cons, filterLoop, filterLoop, ← loop_take fs bs]

/-- Filters beyond the number of bands have no effect at all: no error and the same result as
without them. -/
theorem C128_surplus_ignored (B : FBank K) (m : MBS K) (hsame : B.same = true)
    (hne : m.bands ≠ []) :
    filterMultiband B m = filterMultiband ⟨B.same, B.filters.take m.bands.length⟩ m := by
  have h1 : reported B.same ((B.filters.take m.bands.length).map RFilt.rate) =
      reported B.same (B.filters.map RFilt.rate) := by
    obtain ⟨b, l, hb⟩ := List.exists_cons_of_ne_nil hne
    rw [hb]
    cases B.filters with
    | nil => rfl
    | cons f fs => simp [reported, hsame]
  unfold filterMultiband
  rw [h1, loop_take B.filters m.bands]

/-- Reported rates that differ are rejected; in particular a multirate signal is rejected by
every bank with one rate, and the other way round. -/
theorem C128_filter_rates (B : FBank K) (m : MBS K) (hb : m.bands ≠ []) (hf : B.filters ≠ [])
    (h : m.same ≠ B.same ∨
      (m.same = true ∧ (B.filters.head hf).rate ≠ (m.bands.head hb).rate) ∨
      (m.same = false ∧ B.filters.map RFilt.rate ≠ m.bands.map Band.rate)) :
    filterMultiband B m = .error .assertionError := by
  obtain ⟨b, l, hb'⟩ := List.exists_cons_of_ne_nil hb
  obtain ⟨f, l', hf'⟩ := List.exists_cons_of_ne_nil hf
  have key : reported m.same (m.bands.map Band.rate) ≠
      reported B.same (B.filters.map RFilt.rate) := by
    simp only [hb', hf', List.head_cons, List.map_cons, reported] at h ⊢
    intro hc
    have hc := Option.some.inj hc
    cases h1 : m.same <;> cases h2 : B.same <;> simp [h1, h2] at h hc
    · exact h (hc.1.symm) (by rw [hc.2])
    · exact h hc.symm
  unfold filterMultiband
  have h1 : ∃ r, reported m.same (m.bands.map Band.rate) = some r := ⟨_, by rw [hb']; rfl⟩
  have h2 : ∃ r, reported B.same (B.filters.map RFilt.rate) = some r := ⟨_, by rw [hf']; rfl⟩
  obtain ⟨r, h1⟩ := h1
  obtain ⟨r', h2⟩ := h2
  rw [h1, h2] at key ⊢
  simp only
  rw [if_neg fun hc => key (by rw [hc])]

/-- Filtering a multiband signal whose bands are all the same signal is filtering that signal
with the bank in parallel mode. -/
theorem C128_filter_is_parallel (Fs : List (Filt K)) (hne : Fs ≠ []) (rate : ℕ) (s : State K) :
    filterMultiband ⟨true, Fs.map fun F => ⟨rate, F⟩⟩ ⟨true, Fs.map fun _ => ⟨rate, s⟩⟩ =
      match parallel Fs s with
      | .error e => .error e
      | .ok ts => .ok ⟨true, ts.map fun t => ⟨rate, t⟩⟩ := by
  have hr : RatesAgree (⟨true, Fs.map fun F => ⟨rate, F⟩⟩ : FBank K)
      ⟨true, Fs.map fun _ => ⟨rate, s⟩⟩ := by
    refine ⟨by simpa using hne, Or.inl ⟨rate, rfl, rfl, ?_, ?_, by simpa using hne⟩⟩
    · intro b hb
      obtain ⟨_, -, rfl⟩ := List.mem_map.mp hb
      rfl
    · intro b hb
      obtain ⟨_, -, rfl⟩ := List.mem_map.mp hb
      rfl
  rw [filterMultiband_eq _ _ hr]
  have key : ∀ Fs : List (Filt K), filterLoop (Fs.map fun F => (⟨rate, F⟩ : RFilt K))
      (Fs.map fun _ => ⟨rate, s⟩) = match parallel Fs s with
        | .error e => .error e
        | .ok ts => .ok (ts.map fun t => ⟨rate, t⟩) := by
    intro Fs
    induction Fs with
    | nil => rfl
    | cons F Fs ih =>
      simp only [List.map_cons, filterLoop, filterBand, if_true, ih]
      unfold parallel
      rw [List.mapM_cons]
      cases filterSignal F s with
      | error e => rfl
      | ok t =>
        simp only [bind, Except.bind, pure, Except.pure]
        cases List.mapM (fun F => filterSignal F s) Fs <;> rfl
  simp only
  rw [key]
  cases parallel Fs s <;> rfl

/-! ### The hypotheses are met -/

/-- Two bands of two samples. -/
def twoBands : MBS ℚ := ⟨true, [⟨48000, ⟨⟨2, 1, fun r _ => r⟩, none, false, 1⟩⟩,
  ⟨48000, ⟨⟨2, 1, fun _ _ => 3⟩, none, false, 1⟩⟩]⟩

example : Uniform twoBands 2 1 false ∧ Selects 1 (-1) 0 ∧ twoBands.bands.length ≤ 2 ∧
    RatesAgree ⟨true, [⟨48000, .fir [1]⟩, ⟨48000, .fir [1, 2]⟩, ⟨48000, .fir [7]⟩]⟩ twoBands ∧
    (∀ b ∈ twoBands.bands, Shaped b.sig ∧ b.sig.constrain = false) := by
  refine ⟨⟨by norm_num, by norm_num, by norm_num, ?_, ?_, ?_⟩, ⟨by norm_num, Or.inr (by norm_num)⟩,
    le_refl _, ⟨by simp [twoBands], Or.inl ⟨48000, rfl, rfl, ?_, ?_, by simp⟩⟩, ?_⟩
  · simp [twoBands, State.HasShape]
  · simp [twoBands]
  · simp [twoBands]
  · simp [twoBands]
  · simp
  · intro b hb
    simp [twoBands] at hb
    rcases hb with rfl | rfl <;> exact ⟨⟨by norm_num, by norm_num, by norm_num⟩, rfl⟩

/-- A multirate signal and a multirate bank. -/
example : RatesAgree (⟨false, [⟨8000, .fir [1]⟩, ⟨4000, .fir [1, 2]⟩]⟩ : FBank ℚ)
    ⟨false, [⟨8000, ⟨⟨4, 1, fun r _ => r⟩, none, false, 1⟩⟩,
      ⟨4000, ⟨⟨2, 1, fun _ _ => 3⟩, none, false, 1⟩⟩]⟩ :=
  ⟨by simp, Or.inr ⟨rfl, rfl, rfl⟩⟩

/-- Three bands of two samples: `get_all_bands` is transposed. -/
example : Uniform (⟨true, List.replicate 3 ⟨48000, ⟨⟨2, 1, fun r _ => r⟩, none, false, 1⟩⟩⟩ : MBS ℚ)
    2 1 false := by
  refine ⟨by norm_num, by norm_num, by norm_num, ?_, ?_, ?_⟩ <;>
    simp [State.HasShape, List.replicate]

end Verif.Multiband
