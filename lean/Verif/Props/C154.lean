import Verif.Lemmas.Offline
import Verif.Lemmas.Framing
import Verif.Props.C01
import Verif.Props.C02
import Verif.Props.C03
import Verif.Props.C08
import Verif.Props.C13

/-!
# C154: realtime filtering is offline filtering

`Filt.channel` is what `Filter.filter_signal` does with a channel (C36).
-/

namespace Verif.Streaming

open Bank LFilter FilterChain

variable {K : Type} [Field K]

/-- A realtime filter streams an offline filter: after every history of calls, on every channel that exists,
the value returned for a sample is the last sample of the filtered channel, where the channel is everything
sent to it since the last reset or change of channels. -/
def Streams (F : RTFilter K) (g : List K → List K) : Prop :=
  ∀ (h : List (Op K)) (ch : ℕ) (x : K), ch < nChannels h →
    ∃ y, F.answer h x ch = .ok y ∧ (g (x :: pastInputs ch h).reverse).getLast? = some y

/-- An additional sample adds one sample to the result and leaves the others. -/
def Causal (g : List K → List K) : Prop := g [] = [] ∧ ∀ u x, ∃ v, g (u ++ [x]) = g u ++ [v]

theorem causal_lfilter (b a : List K) : Causal (lfilter b a) :=
  ⟨rfl, fun u x => ⟨_, lfilter_snoc b a u x⟩⟩

omit [Field K] in
theorem causal_comp (f g : List K → List K) (hf : Causal f) (hg : Causal g) : Causal fun x => g (f x) := by
  refine ⟨by show g (f []) = []; rw [hf.1, hg.1], fun u x => ?_⟩
  obtain ⟨v, hv⟩ := hf.2 u x
  obtain ⟨w, hw⟩ := hg.2 (f u) v
  exact ⟨w, by show g (f (u ++ [x])) = _; rw [hv, hw]⟩

theorem causal_fir (b : List K) (hb : b ≠ []) : Causal (Filt.fir b).channel := by
  have hb' : 1 ≤ b.length := List.length_pos_iff.mpr hb
  refine ⟨by simp [Filt.channel], fun u x => ⟨(fullConv b (u ++ [x])).getD u.length 0, ?_⟩⟩
  show (fullConv b (u ++ [x])).take (u ++ [x]).length = (fullConv b u).take u.length ++ [_]
  refine ext_getD _ _ ?_ fun k hk => ?_
  · simp only [List.length_take, length_fullConv, List.length_append, List.length_cons, List.length_nil]
    omega
  · have hk : k < u.length + 1 := by
      simp only [List.length_take, length_fullConv, List.length_append, List.length_cons,
        List.length_nil] at hk
      omega
    have hlen : ((fullConv b u).take u.length).length = u.length := by
      rw [List.length_take, length_fullConv]
      omega
    rw [getD_take _ _ _ (by simpa using hk)]
    by_cases h : k < u.length
    · rw [fullConv_append_left b u [x] k h, List.getD_append _ _ _ _ (by rw [hlen]; exact h),
        getD_take _ _ _ h]
    · rw [List.getD_append_right _ _ _ _ (by rw [hlen]; omega), hlen]
      obtain rfl : k = u.length := by omega
      rw [Nat.sub_self, List.getD_cons_zero]

theorem causal_sections (secs : List (List K × List K)) : Causal (Filt.sos secs).channel := by
  induction secs with
  | nil => exact ⟨rfl, fun u x => ⟨x, rfl⟩⟩
  | cons s secs ih => exact causal_comp (lfilter s.1 s.2) (Filt.sos secs).channel (causal_lfilter s.1 s.2) ih

/-- Offline filtering is causal. -/
theorem channel_causal (G : Filt K) (hp : G.Proper) : Causal G.channel := by
  cases G with
  | fir b => exact causal_fir b hp
  | ba b a => exact causal_lfilter b a
  | sos secs => exact causal_sections secs

omit [Field K] in
/-- The value that is returned is determined. -/
theorem streams_answer (F : RTFilter K) (g : List K → List K) (hs : Streams F g) (h : List (Op K)) (ch : ℕ) (x v : K)
    (hch : ch < nChannels h) (hv : (g (x :: pastInputs ch h).reverse).getLast? = some v) :
    F.answer h x ch = .ok v := by
  obtain ⟨y, hy, hl⟩ := hs h ch x hch
  rw [hv] at hl
  cases hl
  exact hy

/-- The outputs solve the difference equation if every answer does. -/
theorem log_solves (F : RTFilter K) (b a : List K) (hne : a ≠ [])
    (H : ∀ h x ch, ch < nChannels h → ∃ y, F.answer h x ch = .ok y ∧
      a.getD 0 0 * y + tapSum a.tail ((F.log ch h).map Prod.snd) = tapSum b (x :: pastInputs ch h))
    (h : List (Op K)) (ch : ℕ) (hch : ch < nChannels h) :
    SolvesDE b a (pastInputs ch h) ((F.log ch h).map Prod.snd) := by
  induction h using List.reverseRecOn with
  | nil => exact ⟨rfl, fun j => by rw [RTFilter.log_nil]; simp [pastInputs_nil, tapSum_nil_right]⟩
  | append_singleton h op ih =>
    rw [nChannels_snoc] at hch
    rw [RTFilter.log_snoc, pastInputs_snoc]
    cases op with
    | reset => exact ⟨rfl, fun j => by simp [tapSum_nil_right]⟩
    | setChannels m => exact ⟨rfl, fun j => by simp [tapSum_nil_right]⟩
    | sample x c =>
      have ih := ih hch
      dsimp only at hch ⊢
      by_cases hc : c = ch
      · subst hc
        obtain ⟨y, hy, hv⟩ := H h x c hch
        rw [if_pos rfl, if_pos ⟨rfl, hch⟩, hy]
        dsimp only
        rw [List.map_cons]
        refine ⟨by simp [ih.1], fun j => ?_⟩
        cases j with
        | zero =>
          rw [List.drop_zero, List.drop_zero, ← hv]
          obtain ⟨a0, a', rfl⟩ := List.exists_cons_of_ne_nil hne
          rw [tapSum_cons]
          rfl
        | succ j => exact ih.2 j
      · rw [if_neg hc, if_neg fun e => hc e.1]
        exact ih

theorem getLast_of_solves (b a : List K) (ha : a.getD 0 0 ≠ 0) (xs ys : List K) (y : K)
    (h : SolvesDE b a xs (y :: ys)) : (lfilter b a xs.reverse).getLast? = some y := by
  rw [← solvesDE_lfilter b a ha xs _ h]
  simp

theorem streams_of_answers (F : RTFilter K) (b a : List K) (ha : a.getD 0 0 ≠ 0)
    (H : ∀ h x ch, ch < nChannels h → ∃ y, F.answer h x ch = .ok y ∧
      a.getD 0 0 * y + tapSum a.tail ((F.log ch h).map Prod.snd) = tapSum b (x :: pastInputs ch h)) :
    Streams F (lfilter b a) := by
  intro h ch x hch
  have hne : a ≠ [] := fun e => ha (by rw [e]; rfl)
  obtain ⟨y, hy, hv⟩ := H h x ch hch
  have hs := log_solves F b a hne H h ch hch
  refine ⟨y, hy, getLast_of_solves b a ha _ ((F.log ch h).map Prod.snd) y ⟨by simp [hs.1], fun j => ?_⟩⟩
  cases j with
  | zero =>
    rw [List.drop_zero, List.drop_zero, ← hv]
    obtain ⟨a0, a', rfl⟩ := List.exists_cons_of_ne_nil hne
    rw [tapSum_cons]
    rfl
  | succ j => exact hs.2 j

/-- `FIRFilter` with at least two taps streams `filter_signal` with these taps. -/
theorem C154_fir (b : List K) (hb : 2 ≤ b.length) : Streams (FIRFilter.filter b) (Filt.fir b).channel := by
  intro h ch x hch
  refine ⟨_, by rw [FIRFilter.C01_fir_history b hb h x ch, if_pos hch], ?_⟩
  have hlen : ((Filt.fir b).channel (x :: pastInputs ch h).reverse).length = (pastInputs ch h).length + 1 := by
    show ((fullConv b _).take _).length = _
    rw [List.length_take, length_fullConv, List.length_reverse, List.length_cons]
    omega
  rw [List.getLast?_eq_getElem?, hlen, Nat.add_sub_cancel,
    List.getElem?_eq_getElem (by rw [hlen]; omega), Option.some.injEq, ← List.getD_eq_getElem _ 0]
  show ((fullConv b _).take _).getD _ 0 = _
  rw [getD_take _ _ _ (by simp), fullConv_getD]
  unfold tapSum
  refine Finset.sum_congr rfl fun m _ => ?_
  by_cases hm : m ≤ (pastInputs ch h).length
  · rw [if_pos hm, List.getD_reverse _ (by simp only [List.length_cons]; omega)]
    congr 2
    simp only [List.length_cons]
    omega
  · rw [if_neg hm, List.getD_eq_default (x :: pastInputs ch h) _ (by simp only [List.length_cons]; omega),
      mul_zero]

/-- `IIRFilter(b, a)` of order one or more streams `filter_signal` with the same coefficients. -/
theorem C154_iir (b a : List K) (ha : a.getD 0 0 ≠ 0) (ho : 1 ≤ IIRFilter.order b a) :
    Streams (IIRFilter.filter b a) (Filt.ba b a).channel :=
  streams_of_answers _ b a ha fun h x ch hch => by
    obtain ⟨y, h1, h2, -⟩ := IIRFilter.C02_iir_history b a ha ho h x ch hch
    exact ⟨y, h1, h2⟩

/-- A state space filter made from coefficients of the same length streams `filter_signal` with them. -/
theorem C154_state_space [DecidableEq K] (b a : List K) (hlen : b.length = a.length) (ha3 : 3 ≤ a.length)
    (ha : a.getD 0 0 ≠ 0) :
    ∃ F, StateSpace.fromFilter b a = .ok F ∧ Streams F (Filt.ba b a).channel := by
  obtain ⟨F, hF, H⟩ := StateSpace.C13_state_space_history b a hlen ha3 ha
  refine ⟨F, hF, streams_of_answers F b a ha fun h x ch hch => ?_⟩
  have := H h x ch
  rw [if_pos hch] at this
  obtain ⟨y, h1, h2, -⟩ := this
  exact ⟨y, h1, h2⟩

omit [Field K] in
theorem passThrough_inputs (F : RTFilter K) (g : List K → List K) (hs : Streams F g) (hg : Causal g)
    (h : List (Op K)) : nChannels (F.passThrough h) = nChannels h ∧
      ∀ ch < nChannels h, (pastInputs ch (F.passThrough h)).reverse = g (pastInputs ch h).reverse := by
  induction h using List.reverseRecOn with
  | nil => exact ⟨rfl, fun ch _ => hg.1.symm⟩
  | append_singleton h op ih =>
    obtain ⟨ih1, ih2⟩ := ih
    rw [passThrough_snoc, nChannels_snoc]
    cases op with
    | reset =>
      dsimp only
      refine ⟨by rw [nChannels_snoc]; exact ih1, fun ch _ => ?_⟩
      rw [pastInputs_snoc, pastInputs_snoc]
      exact hg.1.symm
    | setChannels m =>
      dsimp only
      refine ⟨by rw [nChannels_snoc], fun ch _ => ?_⟩
      rw [pastInputs_snoc, pastInputs_snoc]
      exact hg.1.symm
    | sample x c =>
      dsimp only
      by_cases hc : c < nChannels h
      · obtain ⟨y, hy, hl⟩ := hs h c x hc
        rw [hy]
        dsimp only
        refine ⟨by rw [nChannels_snoc]; exact ih1, fun ch hch => ?_⟩
        rw [pastInputs_snoc, pastInputs_snoc]
        dsimp only
        by_cases e : c = ch
        · subst e
          rw [if_pos ⟨rfl, by rw [ih1]; exact hc⟩, if_pos ⟨rfl, hc⟩, List.reverse_cons, ih2 c hc,
            List.reverse_cons]
          obtain ⟨v, hv⟩ := hg.2 (pastInputs c h).reverse x
          rw [List.reverse_cons, hv, List.getLast?_append, List.getLast?_singleton] at hl
          cases hl
          exact hv.symm
        · rw [if_neg fun e' => e e'.1, if_neg fun e' => e e'.1]
          exact ih2 ch hch
      · cases F.answer h x c with
        | error e =>
          dsimp only
          refine ⟨ih1, fun ch hch => ?_⟩
          rw [pastInputs_snoc]
          dsimp only
          rw [if_neg fun e' => hc e'.2]
          exact ih2 ch hch
        | ok y =>
          dsimp only
          refine ⟨by rw [nChannels_snoc]; exact ih1, fun ch hch => ?_⟩
          rw [pastInputs_snoc, pastInputs_snoc]
          dsimp only
          rw [if_neg fun e' => hc (by rw [← ih1]; exact e'.2), if_neg fun e' => hc e'.2]
          exact ih2 ch hch

omit [Field K] in
theorem streams_cons (F : RTFilter K) (Fs : List (RTFilter K)) (g g' : List K → List K) (hF : Streams F g)
    (hg : Causal g) (hFs : Streams (chain Fs) g') : Streams (chain (F :: Fs)) fun x => g' (g x) := by
  intro h ch x hch
  obtain ⟨y, hy, hl⟩ := hF h ch x hch
  obtain ⟨hn, hp⟩ := passThrough_inputs F g hF hg h
  obtain ⟨z, hz, hl'⟩ := hFs (F.passThrough h) ch y (by rw [hn]; exact hch)
  refine ⟨z, ?_, ?_⟩
  · rw [C03_chain_answer, hy]
    exact hz
  · show (g' (g (x :: pastInputs ch h).reverse)).getLast? = some z
    obtain ⟨v, hv⟩ := hg.2 (pastInputs ch h).reverse x
    rw [List.reverse_cons, hv, List.getLast?_append, List.getLast?_singleton] at hl
    cases hl
    rw [List.reverse_cons, hv, ← hp ch hch, ← List.reverse_cons]
    exact hl'

/-- A chain of realtime filters that stream filters (with at least one coefficient) streams these filters
applied one after the other. -/
theorem C154_chain (Fs : List (RTFilter K)) (Gs : List (Filt K))
    (h : List.Forall₂ (fun F G => Streams F G.channel) Fs Gs) (hG : ∀ G ∈ Gs, G.Proper) :
    Streams (chain Fs) fun x => Gs.foldl (fun x G => G.channel x) x := by
  induction h with
  | nil =>
    intro h ch x _
    exact ⟨x, C03_empty_chain h x ch, by simp⟩
  | @cons F G Fs Gs h1 h2 ih =>
    exact streams_cons F Fs _ _ h1 (channel_causal G (hG G List.mem_cons_self)) (ih fun G' h' => hG G' (List.mem_cons_of_mem _ h'))

/-- `from_filter_as_sos_list` succeeds for all sections with a leading coefficient, and the list of filters
in a chain streams `filter_signal` with the sections. -/
theorem C154_sections [DecidableEq K] (sos : List (List K)) (hrow : ∀ r ∈ sos, r.length = 6)
    (ha : ∀ r ∈ sos, r.getD 3 0 ≠ 0) :
    ∃ Fs, StateSpace.fromSections sos = .ok Fs ∧ Fs.length = sos.length ∧
      Streams (chain Fs) (Filt.sos (sos.map fun r => (r.take 3, r.drop 3))).channel := by
  induction sos with
  | nil => exact ⟨[], rfl, rfl, fun h ch x _ => ⟨x, C03_empty_chain h x ch, by simp [Filt.channel]⟩⟩
  | cons r sos ih =>
    obtain ⟨Fs, h1, h2, h3⟩ := ih (fun r' h' => hrow r' (List.mem_cons_of_mem _ h'))
      fun r' h' => ha r' (List.mem_cons_of_mem _ h')
    have hr := hrow r List.mem_cons_self
    obtain ⟨F, hF, hs⟩ := C154_state_space (r.take 3) (r.drop 3) (by simp [hr]) (by simp [hr])
      (by
        rw [getD_drop]
        exact ha r List.mem_cons_self)
    refine ⟨F :: Fs, ?_, by simp [h2], ?_⟩
    · show List.mapM _ (r :: sos) = _
      rw [List.mapM_cons, hF]
      show (StateSpace.fromSections sos >>= fun x => pure (F :: x)) = _
      rw [h1]
      rfl
    · exact streams_cons F Fs (lfilter (r.take 3) (r.drop 3)) _ hs (causal_lfilter _ _) h3

/-- A lattice-ladder filter streams `filter_signal` with the coefficients it was made from, under the
conditions of C08: calls `set_n_channels(0)` are refused and do not count. -/
theorem C154_lattice_partial (b a : List K) (hlen : b.length = a.length) (ha : 2 ≤ a.length)
    (ha0 : a.getD 0 0 = 1)
    (hd : ∀ i, 1 ≤ i → i < a.length - 1 →
      1 - Lattice.refl (fun m => - a.getD (m + 1) 0) (a.length - 1) i ^ 2 ≠ 0) :
    ∃ F, Lattice.fromIIR b a = .ok F ∧ ∀ (h : List (Op K)) (ch : ℕ) (x : K),
      ch < nChannels (dropZeroChannels h) → ∃ y, F.answer h x ch = .ok y ∧
        ((Filt.ba b a).channel (x :: pastInputs ch (dropZeroChannels h)).reverse).getLast? = some y := by
  obtain ⟨F, hF, H⟩ := Lattice.C08_lattice_iir_partial b a hlen ha ha0 hd
  refine ⟨F, hF, fun h ch x hch => ?_⟩
  obtain ⟨y, hy, hs⟩ := (H h ch).2 x hch
  exact ⟨y, hy, getLast_of_solves b a (by rw [ha0]; exact one_ne_zero) _ _ y hs⟩

theorem cascade_solves (secs : List (List K × List K)) (h0 : ∀ s ∈ secs, s.2.getD 0 0 ≠ 0) (xs ys : List K)
    (h : SolvesCascade secs xs ys) : ys.reverse = (Filt.sos secs).channel xs.reverse := by
  induction secs generalizing xs with
  | nil =>
    have : ys = xs := h
    rw [this]
    rfl
  | cons s secs ih =>
    obtain ⟨zs, h1, h2⟩ := h
    have e := ih (fun t ht => h0 t (List.mem_cons_of_mem _ ht)) zs h2
    rw [solvesDE_lfilter s.1 s.2 (h0 s List.mem_cons_self) xs zs h1] at e
    exact e

/-- The same for second-order sections. -/
theorem C154_lattice_sections_partial [DecidableEq K] (sos : List (Lattice.Sos K)) (h0 : ∀ s ∈ sos, s.a0 = 1)
    (h2 : ∀ s ∈ sos, 1 - s.a2 ^ 2 ≠ 0) :
    ∃ F, Lattice.fromSos sos = .ok F ∧ ∀ (h : List (Op K)) (ch : ℕ) (x : K),
      ch < nChannels (dropZeroChannels h) → ∃ y, F.answer h x ch = .ok y ∧
        ((Filt.sos (sos.map fun s => ([s.b0, s.b1, s.b2], [s.a0, s.a1, s.a2]))).channel
          (x :: pastInputs ch (dropZeroChannels h)).reverse).getLast? = some y := by
  obtain ⟨F, hF, H⟩ := Lattice.C08_lattice_sos_partial sos h0 h2
  refine ⟨F, hF, fun h ch x hch => ?_⟩
  obtain ⟨y, hy, hs⟩ := (H h ch).2 x hch
  refine ⟨y, hy, ?_⟩
  rw [← cascade_solves _ _ _ _ hs]
  · simp
  · intro t ht
    obtain ⟨s, hs, rfl⟩ := List.mem_map.mp ht
    show s.a0 ≠ 0
    rw [h0 s hs]
    exact one_ne_zero

omit [Field K] in
theorem causal_take (g : List K → List K) (hg : Causal g) (u v : List K) : ∃ w, g (u ++ v) = g u ++ w := by
  induction v using List.reverseRecOn with
  | nil => exact ⟨[], by simp⟩
  | append_singleton v x ih =>
    obtain ⟨w, hw⟩ := ih
    obtain ⟨z, hz⟩ := hg.2 (u ++ v) x
    exact ⟨w ++ [z], by rw [← List.append_assoc, hz, hw, List.append_assoc]⟩

omit [Field K] in
theorem causal_length (g : List K → List K) (hg : Causal g) (u : List K) : (g u).length = u.length := by
  induction u using List.reverseRecOn with
  | nil => rw [hg.1]
  | append_singleton u x ih =>
    obtain ⟨z, hz⟩ := hg.2 u x
    rw [hz, List.length_append, List.length_append, ih]
    rfl

omit [Field K] in
theorem pastInputs_samples (x : List K) (ch : ℕ) (h : List (Op K)) (hch : ch < nChannels h) :
    nChannels (h ++ x.map (Op.sample · ch)) = nChannels h ∧
      pastInputs ch (h ++ x.map (Op.sample · ch)) = x.reverse ++ pastInputs ch h := by
  induction x using List.reverseRecOn with
  | nil => simp
  | append_singleton x v ih =>
    rw [List.map_append, List.map_singleton, ← List.append_assoc, nChannels_snoc, pastInputs_snoc]
    dsimp only
    rw [ih.1, if_pos ⟨rfl, hch⟩, ih.2]
    simp

/-- A whole channel: after a reset, the samples of a channel sent one by one give the samples of the filtered
channel, whatever happened before the reset. -/
theorem C154_channel (F : RTFilter K) (g : List K → List K) (hs : Streams F g) (hg : Causal g)
    (h : List (Op K)) (ch : ℕ) (hch : ch < nChannels h) (x : List K) (n : ℕ) (hn : n < x.length) :
    (g x).length = x.length ∧
    F.answer (h ++ [.reset] ++ (x.take n).map (Op.sample · ch)) (x.getD n 0) ch = .ok ((g x).getD n 0) := by
  refine ⟨causal_length g hg x, ?_⟩
  have hch' : ch < nChannels (h ++ [.reset]) := by rw [nChannels_snoc]; exact hch
  obtain ⟨h1, h2⟩ := pastInputs_samples (x.take n) ch (h ++ [.reset]) hch'
  refine streams_answer F g hs _ ch _ _ (by rw [h1]; exact hch') ?_
  rw [h2, pastInputs_snoc]
  dsimp only
  have hx : x = x.take n ++ [x.getD n 0] ++ x.drop (n + 1) := by
    rw [List.append_assoc]
    conv_lhs => rw [← List.take_append_drop n x, List.drop_eq_getElem_cons hn]
    rw [List.getD_eq_getElem x 0 hn]
    rfl
  rw [List.append_nil, List.reverse_cons, List.reverse_reverse]
  obtain ⟨w, hw⟩ := causal_take g hg (x.take n ++ [x.getD n 0]) (x.drop (n + 1))
  rw [← hx] at hw
  obtain ⟨v, hv⟩ := hg.2 (x.take n) (x.getD n 0)
  have hl : (g (x.take n)).length = n := by rw [causal_length g hg, List.length_take]; omega
  rw [hw, hv, List.getLast?_append, List.getLast?_singleton, List.append_assoc,
    List.getD_append_right _ _ _ _ (by rw [hl]), hl, Nat.sub_self]
  rfl

/-- Filters with a single coefficient do not stream anything: every call raises. -/
theorem C154_order_zero_wrong (b0 a0 : K) (g : List K → List K) :
    ¬ Streams (FIRFilter.filter [b0]) g ∧ ¬ Streams (IIRFilter.filter [b0] [a0]) g := by
  refine ⟨fun h => ?_, fun h => ?_⟩
  · obtain ⟨y, hy, -⟩ := h [] 0 0 Nat.zero_lt_one
    rw [FIRFilter.C01_single_tap_raises] at hy
    cases hy
  · obtain ⟨y, hy, -⟩ := h [] 0 0 Nat.zero_lt_one
    rw [IIRFilter.C02_iir_order_zero_raises [b0] [a0] rfl] at hy
    cases hy

/-- A second-order section and a chain of two sections that meet the hypotheses. -/
example : ∃ Fs, StateSpace.fromSections [[1, 2, 1, 2, 0, 1], [0, 1, 0, 1, 1, 0]] = .ok Fs ∧ Fs.length = 2 ∧
    Streams (chain Fs) (Filt.sos [(([1, 2, 1] : List ℚ), [2, 0, 1]), ([0, 1, 0], [1, 1, 0])]).channel :=
  C154_sections _ (by simp) (by simp)

/-- The samples of an impulse through a recursive filter, sent one by one after some other calls. -/
example : (IIRFilter.filter [1] [2, (1 : ℚ)]).answer
    ([.sample 5 0] ++ [.reset] ++ [.sample 1 0, .sample 0 0]) 0 0 = .ok (1 / 8) := by
  have h := (C154_channel (IIRFilter.filter [1] [2, (1 : ℚ)]) _
    (C154_iir [1] [2, 1] (by simp) (by decide)) (channel_causal (.ba [1] [2, 1]) (by simp [Filt.Proper]))
    [.sample 5 0] 0 (by decide) [1, 0, 0] 2 (by simp)).2
  have e : (Filt.ba [1] [2, (1 : ℚ)]).channel [1, 0, 0] = [1 / 2, - 1 / 4, 1 / 8] := by
    refine (solvesDE_lfilter [1] [2, (1 : ℚ)] (by simp) [0, 0, 1] [1 / 8, - 1 / 4, 1 / 2] ⟨rfl, fun j => ?_⟩).symm
    match j with
    | 0 => norm_num [tapSum, Finset.sum_range_succ]
    | 1 => norm_num [tapSum, Finset.sum_range_succ]
    | 2 => norm_num [tapSum, Finset.sum_range_succ]
    | j + 3 => simp [tapSum]
  rw [e] at h
  exact h

end Verif.Streaming
