import Verif.Model.AverageIR
import Verif.Props.C39
import Verif.Props.C45
import Verif.Props.C77

/-!
# C86: averages of impulse responses and their combination with impulses
-/

namespace Verif.AverageIR

open Verif.SignalData Verif.FractionalDelay Verif.Collapse Finset

/-! ### One channel -/

theorem getOne (s : State ℝ) (hs : Valid s) (him : s.im = none) (h2 : 2 ≤ s.re.rows) (c : ℕ)
    (hc : c < s.re.cols) :
    ∃ t, getChannels s [(c : ℤ)] = .ok t ∧ t.re.rows = s.re.rows ∧ t.re.cols = 1 ∧ t.im = none ∧
      t.constrain = s.constrain ∧ ∀ r < s.re.rows, t.re.val r 0 = s.re.val r c := by
  have hp : [(c : ℤ)].mapM (pyIndex s.re.cols) = some [c] := by
    have : pyIndex s.re.cols (c : ℤ) = some c := by
      unfold pyIndex
      rw [if_pos ⟨by omega, by omega⟩, Int.toNat_natCast]
    simp [this]
  unfold getChannels
  rw [hp, him]
  dsimp only
  rw [copyWith_ok]
  · exact ⟨_, rfl, rfl, rfl, rfl, rfl, fun r hr => rfl⟩
  · show 1 ≤ s.re.rows
    omega
  · show ¬ (s.re.rows = 1 ∧ 1 = 1)
    omega
  · intro h
    refine ⟨le_refl 1, fun r hr c' hc' => ?_, fun f hf => absurd hf (by simp)⟩
    have : c' < 1 := hc'
    obtain rfl : c' = 0 := by omega
    exact hs.bounded h r hr c hc

theorem delayed_channel (s : State ℝ) (hs : Valid s) (him : s.im = none) (h2 : 2 ≤ s.re.rows) (c : ℕ)
    (hc : c < s.re.cols) (fs : ℕ) (hfs : 1 ≤ fs) (n : ℕ) (hn : n < s.re.rows) :
    ∃ one d, getChannels s [(c : ℤ)] = .ok one ∧
      fractionalDelay one fs ((n : ℝ) / fs) none true 30 60 = .ok d ∧ d.re.rows = s.re.rows ∧
      d.re.cols = 1 ∧ d.im = none ∧
      ∀ r < s.re.rows, d.re.val r 0 = delayedBy n (fun i => s.sample i c) r := by
  obtain ⟨t, ht, hrows, hcols, himt, hcon, hval⟩ := getOne s hs him h2 c hc
  have hfs' : (fs : ℝ) ≠ 0 := by
    have : (1 : ℝ) ≤ fs := by exact_mod_cast hfs
    linarith
  have htv : Valid t := by
    refine ⟨by omega, fun B hB => absurd (himt ▸ hB) (by simp), fun h => ?_⟩
    intro r hr c' hc'
    obtain rfl : c' = 0 := by omega
    rw [hval r (by omega)]
    exact hs.bounded (hcon ▸ h) r (by omega) c hc
  obtain ⟨d, hd, hd1, hd2, hd3⟩ := C77_whole_samples t htv (by omega) (by omega) fs ((n : ℝ) / fs)
    (by positivity) n (by field_simp) none true 30 (by norm_num) 60 (by simp) (fun _ => by omega)
  rw [if_pos (.inl rfl)] at hd2
  refine ⟨t, d, ht, hd, by omega, by omega, ?_, fun r hr => ?_⟩
  · by_cases h0 : (n : ℝ) / fs = 0
    · unfold fractionalDelay at hd
      rw [if_neg (by rw [h0]; exact lt_irrefl _), if_pos h0] at hd
      cases hd
      exact himt
    · exact C77_imaginary_lost t d fs _ h0 none true 30 60 hd
  · have := hd3 0 (by omega) r (by omega)
    rw [sample_in d r 0 (by omega) (by omega), if_pos (by simp)] at this
    rw [this]
    unfold delayedBy
    split_ifs with h
    · rfl
    · dsimp only
      rw [sample_in t _ 0 (by omega) (by omega), sample_in s _ c (by omega) hc, hval _ (by omega)]

/-! ### Impulses -/

/-- `imp` holds impulses of length `N` at the positions `pos 0, …, pos k`. -/
structure Diracs (imp : State ℝ) (N k : ℕ) (pos : ℕ → ℕ) : Prop where
  rows : imp.re.rows = N
  cols : imp.re.cols = k + 1
  im : imp.im = none
  con : imp.constrain = true
  val : ∀ r < N, ∀ j ≤ k, imp.re.val r j = if r = pos j then 1 else 0

theorem Diracs.bounded {imp : State ℝ} {N k : ℕ} {pos : ℕ → ℕ} (h : Diracs imp N k pos) (r c : ℕ)
    (hr : r < N) (hc : c ≤ k) : |imp.re.val r c| ≤ 1 := by
  rw [h.val r hr c hc]
  split_ifs <;> simp

theorem Diracs.valid {imp : State ℝ} {N k : ℕ} {pos : ℕ → ℕ} (h : Diracs imp N k pos) (hk : k + 1 ≤ N) :
    Valid imp := by
  refine ⟨by rw [h.rows, h.cols]; exact hk, fun B hB => absurd (h.im ▸ hB) (by simp), fun _ => ?_⟩
  intro r hr c hc
  rw [h.rows] at hr
  rw [h.cols] at hc
  exact h.bounded r c hr (by omega)

theorem dirac_spec (n : ℕ) (hn : 2 ≤ n) (pos : ℕ → ℕ) (hp : pos 0 = 0) :
    ∃ imp, dirac n = .ok imp ∧ Diracs imp n 0 pos := by
  unfold dirac construct
  rw [setData_ok]
  · refine ⟨_, rfl, rfl, rfl, rfl, rfl, fun r hr j hj => ?_⟩
    obtain rfl : j = 0 := by omega
    rw [hp]
    rfl
  · show 1 ≤ n
    omega
  · show ¬ (n = 1 ∧ 1 = 1)
    omega
  · intro _
    refine ⟨le_refl 1, fun r hr c hc => ?_, fun f hf => absurd hf (by simp)⟩
    dsimp only
    split_ifs <;> simp

theorem append_spec (imp d : State ℝ) (fs N k : ℕ) (pos : ℕ → ℕ) (h : Diracs imp N k pos)
    (hN : k + 2 ≤ N) (hr : d.re.rows = N) (hc : d.re.cols = 1) (him : d.im = none)
    (hval : ∀ r < N, d.re.val r 0 = if r = pos (k + 1) then 1 else 0) :
    ∃ imp', appendSignals [(imp, fs), (d, fs)] true true = .ok (imp', fs) ∧
      Diracs imp' N (k + 1) pos := by
  have hent : ∀ r < N, ∀ j ≤ k + 1,
      writeAllRe N true [imp, d] 0 (fun _ _ => (0 : ℝ)) r j = if r = pos j then 1 else 0 := by
    intro r hr' j hj
    unfold writeAllRe writeAllRe writeAllRe writeBlock
    rw [h.cols, hc]
    by_cases hjk : j = k + 1
    · subst hjk
      rw [if_pos ⟨hr', by omega, by omega⟩]
      dsimp only
      rw [padTrim_end _ _ _ hr', colOf_getD, if_pos (by omega),
        show k + 1 - (0 + (k + 1)) = 0 by omega]
      exact hval r hr'
    · rw [if_neg (by omega), if_pos ⟨hr', by omega, by omega⟩]
      dsimp only
      rw [padTrim_end _ _ _ hr', colOf_getD,
        if_pos (by rw [h.rows]; exact hr'), Nat.sub_zero]
      exact h.val r hr' j (by omega)
  unfold appendSignals
  dsimp only
  rw [if_pos (by simp)]
  simp only [List.map_cons, List.map_nil, List.sum_cons, List.sum_nil, List.any_cons, List.any_nil,
    h.im, him, Option.isSome_none, Bool.or_false, Bool.false_eq_true, if_false, h.rows]
  rw [setData_ok]
  · refine ⟨_, rfl, rfl, ?_, rfl, h.con, fun r hr' j hj => hent r hr' j hj⟩
    show imp.re.cols + (d.re.cols + 0) = k + 1 + 1
    rw [h.cols, hc]
  · show imp.re.cols + (d.re.cols + 0) ≤ N
    rw [h.cols, hc]
    omega
  · show ¬ (N = 1 ∧ _)
    omega
  · intro _
    refine ⟨?_, fun r hr' c hc' => ?_, fun f hf => absurd hf (by simp)⟩
    · show 1 ≤ imp.re.cols + (d.re.cols + 0)
      rw [h.cols]
      omega
    · have h1 : c < imp.re.cols + (d.re.cols + 0) := hc'
      rw [h.cols, hc] at h1
      have := hent r hr' c (by omega)
      dsimp only
      rw [this]
      split_ifs <;> simp

theorem diracLoop_spec (N fs : ℕ) (hfs : 1 ≤ fs) (lat : ℕ → ℕ) (pos : ℕ → ℕ)
    (hpos : ∀ k, pos (k + 1) = pos k + lat k) (m k : ℕ) (imp : State ℝ) (h : Diracs imp N k pos)
    (hN : k + m + 1 ≤ N) (h2 : 2 ≤ N) (hlat : ∀ c < k + m, lat c < N) :
    ∃ all, diracLoop fs (fun c => (lat c : ℝ)) (List.range' k m) imp = .ok all ∧
      Diracs all N (k + m) pos := by
  induction m generalizing k imp with
  | zero => exact ⟨imp, rfl, h⟩
  | succ m ih =>
    obtain ⟨one, d, h1, hd, hr, hc, him, hv⟩ := delayed_channel imp (h.valid (by omega)) h.im
      (by rw [h.rows]; exact h2) k (by rw [h.cols]; omega) fs hfs (lat k)
      (by rw [h.rows]; exact hlat k (by omega))
    obtain ⟨imp', ha, h'⟩ := append_spec imp d fs N k pos h (by omega) (by rw [hr, h.rows]) hc him
      (fun r hr' => by
        rw [hv r (by rw [h.rows]; exact hr'), hpos]
        unfold delayedBy
        by_cases hlt : r < lat k
        · rw [if_pos hlt, if_neg (by omega)]
        · rw [if_neg hlt]
          dsimp only
          rw [sample_in imp _ k (by rw [h.rows]; omega) (by rw [h.cols]; omega),
            h.val _ (by omega) k le_rfl]
          by_cases he : r - lat k = pos k
          · rw [if_pos he, if_pos (by omega)]
          · rw [if_neg he, if_neg (by omega)])
    obtain ⟨all, hall, hD⟩ := ih (k + 1) imp' h' (by omega) (fun c hc => hlat c (by omega))
    refine ⟨all, ?_, by rwa [show k + (m + 1) = k + 1 + m by omega]⟩
    rw [List.range'_succ]
    unfold diracLoop
    rw [h1]
    dsimp only
    rw [hd]
    dsimp only
    rw [ha]
    exact hall

/-- For latencies of whole samples, `combine_ir_with_dirac` combines channel `c` of the impulse response
with an impulse at the **sum** of the latencies of the channels `0, …, c`. -/
theorem C86_dirac_positions (N channels fs : ℕ) (hfs : 1 ≤ fs) (lat : ℕ → ℕ) (hc1 : 1 ≤ channels)
    (hN : channels + 1 ≤ N) (hlat : ∀ c < channels, lat c < N) :
    ∃ imp, diracs N channels fs (fun c => (lat c : ℝ)) = .ok imp ∧ imp.HasShape N channels ∧
      ∀ c < channels, ∀ r < N, imp.sample r c = if r = ∑ i ∈ range (c + 1), lat i then 1 else 0 := by
  obtain ⟨imp0, h0, hD0⟩ := dirac_spec N (by omega) (fun k => ∑ i ∈ range k, lat i) (by simp)
  obtain ⟨all, hall, hD⟩ := diracLoop_spec N fs hfs lat (fun k => ∑ i ∈ range k, lat i)
    (fun k => sum_range_succ _ _) channels 0 imp0 hD0 (by omega) (by omega)
    (fun c hc => hlat c (by omega))
  rw [Nat.zero_add] at hD
  unfold diracs
  rw [h0]
  dsimp only
  rw [List.range_eq_range', hall]
  dsimp only
  have hrem : removeChannel all 0 = (none, ⟨⟨N, channels, fun r c => all.re.val r (c + 1)⟩, none, true, 1⟩) := by
    unfold removeChannel
    dsimp only
    rw [hD.cols, if_neg (by omega), if_neg (by omega), if_neg (by push_cast; omega)]
    unfold State.fullInput
    rw [hD.im, hD.rows, hD.cols]
    simp only [Option.map_none, lt_irrefl, if_false, Int.toNat_zero, Nat.not_lt_zero,
      show ¬ ((0 : ℤ) = -1) by omega, Nat.add_sub_cancel]
    rw [setData_ok]
    · unfold orKeep Input.reMat Input.imMat
      rw [hD.con]
      rfl
    · show channels ≤ N
      omega
    · show ¬ (N = 1 ∧ _)
      omega
    · intro _
      exact ⟨hc1, fun r hr c hc => hD.bounded r (c + 1) hr (by have : c < channels := hc; omega),
        fun f hf => absurd hf (by simp)⟩
  rw [hrem]
  refine ⟨_, rfl, ⟨rfl, rfl⟩, fun c hc r hr => ?_⟩
  rw [sample_in _ r c hr hc]
  exact hD.val r hr (c + 1) (by omega)

/-- The first channel is combined with an impulse at its own latency, as is each channel if the channels
before it have no latency. -/
theorem C86_dirac_partial (N channels fs : ℕ) (hfs : 1 ≤ fs) (lat : ℕ → ℕ)
    (hN : channels + 1 ≤ N) (hlat : ∀ c < channels, lat c < N) (c : ℕ) (hc : c < channels)
    (hz : ∀ i < c, lat i = 0) :
    ∃ imp, diracs N channels fs (fun c => (lat c : ℝ)) = .ok imp ∧
      ∀ r < N, imp.sample r c = if r = lat c then 1 else 0 := by
  obtain ⟨imp, h1, -, h2⟩ := C86_dirac_positions N channels fs hfs lat (by omega) hN hlat
  refine ⟨imp, h1, fun r hr => ?_⟩
  rw [h2 c hc r hr, sum_range_succ, sum_eq_zero (fun i hi => hz i (mem_range.1 hi)), Nat.zero_add]

/-- Two channels with the same latency `0 < n` get impulses at different times. -/
theorem C86_dirac_wrong (N n fs : ℕ) (hfs : 1 ≤ fs) (h0 : 0 < n) (hN : 3 ≤ N) (hn : n < N) :
    ∃ imp, diracs N 2 fs (fun _ => (n : ℝ)) = .ok imp ∧ imp.sample n 0 = 1 ∧ imp.sample n 1 = 0 := by
  obtain ⟨imp, h1, -, h2⟩ := C86_dirac_positions N 2 fs hfs (fun _ => n) (by omega) hN (fun _ _ => hn)
  refine ⟨imp, h1, ?_, ?_⟩
  · rw [h2 0 (by omega) n hn, if_pos (by simp)]
  · rw [h2 1 (by omega) n hn, if_neg (by simp; omega)]

/-! ### Averages -/

theorem alignLoop_spec (s : State ℝ) (hs : Valid s) (him : s.im = none) (h2 : 2 ≤ s.re.rows) (fs : ℕ)
    (hfs : 1 ≤ fs) (lat : ℕ → ℕ) (follow M : ℕ) (hM : lat follow = M) (l : List ℕ)
    (hl : ∀ i ∈ l, i < s.re.cols ∧ lat i ≤ M ∧ M - lat i < s.re.rows) (cols : ℕ → List ℝ) :
    ∃ out, alignLoop s fs (fun c => (lat c : ℝ)) follow l cols = .ok out ∧
      ∀ i, (i ∈ l ∧ i ≠ follow → ∀ r < s.re.rows,
        (out i).getD r 0 = delayedBy (M - lat i) (fun k => s.sample k i) r) ∧
        (¬ (i ∈ l ∧ i ≠ follow) → out i = cols i) := by
  induction l generalizing cols with
  | nil => exact ⟨cols, rfl, fun i => ⟨fun h => absurd h.1 (by simp), fun _ => rfl⟩⟩
  | cons a l ih =>
    have hl' := fun i hi => hl i (List.mem_cons_of_mem a hi)
    unfold alignLoop
    by_cases hfa : follow = a
    · rw [if_pos hfa]
      obtain ⟨out, h1, h3⟩ := ih hl' cols
      refine ⟨out, h1, fun i => ⟨fun h => (h3 i).1 ⟨?_, h.2⟩, fun h => (h3 i).2 fun hh => h ⟨?_, hh.2⟩⟩⟩
      · rcases List.mem_cons.1 h.1 with rfl | h'
        · exact absurd hfa.symm h.2
        · exact h'
      · exact List.mem_cons_of_mem a hh.1
    · rw [if_neg hfa]
      obtain ⟨hac, hle, hlt⟩ := hl a (by simp)
      obtain ⟨one, d, h1, hd, hr, hc, -, hv⟩ := delayed_channel s hs him h2 a hac fs hfs (M - lat a) hlt
      rw [h1]
      dsimp only
      rw [show ((lat follow : ℝ) - (lat a : ℝ)) / fs = ((M - lat a : ℕ) : ℝ) / fs by
        rw [hM, Nat.cast_sub hle], hd]
      dsimp only
      obtain ⟨out, h4, h5⟩ := ih hl' (Function.update cols a (colOf d.re 0))
      refine ⟨out, h4, fun i => ⟨fun h => ?_, fun h => ?_⟩⟩
      · by_cases hil : i ∈ l
        · exact (h5 i).1 ⟨hil, h.2⟩
        · obtain rfl : i = a := by
            rcases List.mem_cons.1 h.1 with h' | h'
            · exact h'
            · exact absurd h' hil
          intro r hr'
          rw [(h5 i).2 (fun hh => hil hh.1), Function.update_self, colOf_getD, if_pos (by omega)]
          exact hv r hr'
      · have hia : i ≠ a := fun hh => h ⟨by simp [hh], fun hf => hfa (hf ▸ hh)⟩
        rw [(h5 i).2 (fun hh => h ⟨List.mem_cons_of_mem a hh.1, hh.2⟩), Function.update_of_ne hia]

/-- Channel `f` is the first one with the largest latency, and no channel has to be delayed by the whole
length. -/
structure Follows (s : State ℝ) (lat : ℕ → ℕ) (f : ℕ) : Prop where
  inside : f < s.re.cols
  largest : ∀ c < s.re.cols, lat c ≤ lat f
  first : ∀ c < f, lat c < lat f
  short : ∀ c < s.re.cols, lat f - lat c < s.re.rows

theorem argmax_follow (s : State ℝ) (lat : ℕ → ℕ) (f : ℕ) (h : Follows s lat f) :
    Helpers.argmin ((List.range s.re.cols).map fun c => -(lat c : ℝ)) = .ok f := by
  have hlen : ((List.range s.re.cols).map fun c => -(lat c : ℝ)).length = s.re.cols := by simp
  have hget : ∀ c < s.re.cols, ((List.range s.re.cols).map fun c => -(lat c : ℝ)).getD c 0 = -(lat c : ℝ) := by
    intro c hc
    rw [List.getD_eq_getElem _ _ (by rw [hlen]; exact hc)]
    simp
  obtain ⟨i, hi, h1, h2, h3⟩ := Helpers.argmin_spec ((List.range s.re.cols).map fun c => -(lat c : ℝ))
    (by
      intro he
      have := congrArg List.length he
      rw [hlen] at this
      have := h.inside
      simp only [List.length_nil] at *
      omega)
  rw [hlen] at h1 h2
  rw [hi]
  congr 1
  have hif := h2 f h.inside
  rw [hget i h1, hget f h.inside, neg_le_neg_iff, Nat.cast_le] at hif
  rcases lt_trichotomy i f with hlt | rfl | hlt
  · exact absurd (h.first i hlt) (by omega)
  · rfl
  · have := h3 f hlt
    rw [hget i h1, hget f h.inside, neg_lt_neg_iff, Nat.cast_lt] at this
    exact absurd (h.largest i h1) (by omega)

theorem sample_abs (s : State ℝ) (hs : Valid s) (hc : s.constrain = true) (n c r : ℕ) :
    |delayedBy n (fun k => s.sample k c) r| ≤ 1 := by
  unfold delayedBy
  split_ifs
  · simp
  · exact sample_bounded hs hc _ _

theorem normalized_spec (s : State ℝ) (hs : Valid s) (hcols : 2 ≤ s.re.cols) (norm : Bool)
    (he : norm = true → energy s 0 ≠ 0)
    (hfit : norm = true → s.constrain = true → ∀ c < s.re.cols, ∀ r < s.re.rows,
      |s.re.val r c * (energy s c / energy s 0)| ≤ 1) :
    ∃ avg, normalized s norm = .ok avg ∧ avg.constrain = s.constrain ∧ avg.re.rows = s.re.rows ∧
      ∀ r < s.re.rows, ∀ c < s.re.cols, avg.re.val r c =
        (if norm = true then energy s c / energy s 0 else 1) * s.re.val r c := by
  have hshape := hs.shape
  unfold normalized
  cases norm with
  | false => exact ⟨s, by simp, rfl, rfl, fun r _ c _ => by simp⟩
  | true =>
    rw [if_pos rfl, if_neg (he rfl), setData_ok]
    · exact ⟨_, rfl, rfl, rfl, fun r _ c _ => by rw [if_pos rfl, mul_comm]; rfl⟩
    · exact hs.shape
    · show ¬ (s.re.rows = 1 ∧ s.re.cols = 1)
      omega
    · intro hcon
      exact ⟨by show 1 ≤ s.re.cols; omega, fun r hr c hc => hfit rfl hcon c hc r hr,
        fun f hf => absurd hf (by simp)⟩

/-- What `average_irs` computes in the time domain for latencies of whole samples: all channels are
delayed to the largest latency, then averaged; the energies matter for the followed channel only, whose
weight is its energy relative to the first channel. -/
theorem C86_average_weights (s : State ℝ) (hs : Valid s) (him : s.im = none) (hcols : 2 ≤ s.re.cols)
    (fs : ℕ) (hfs : 1 ≤ fs) (lat : ℕ → ℕ) (f : ℕ) (hf : Follows s lat f) (norm : Bool)
    (he : norm = true → energy s 0 ≠ 0)
    (hfit : norm = true → s.constrain = true → ∀ c < s.re.cols, ∀ r < s.re.rows,
      |s.re.val r c * (energy s c / energy s 0)| ≤ 1) :
    ∃ a, averageTime s fs norm (fun c => (lat c : ℝ)) = .ok a ∧ a.HasShape s.re.rows 1 ∧
      ∀ r < s.re.rows, a.sample r 0 =
        (∑ c ∈ range s.re.cols, (if norm = true ∧ c = f then energy s f / energy s 0 else 1) *
          delayedBy (lat f - lat c) (fun k => s.sample k c) r) / s.re.cols := by
  have hshape := hs.shape
  obtain ⟨avg, havg, hcon, hrows, hval⟩ := normalized_spec s hs hcols norm he hfit
  obtain ⟨out, hout, hcol⟩ := alignLoop_spec s hs him (by omega) fs hfs lat f (lat f) rfl
    (List.range s.re.cols)
    (fun i hi => ⟨List.mem_range.1 hi, hf.largest i (List.mem_range.1 hi), hf.short i (List.mem_range.1 hi)⟩)
    (colOf avg.re)
  have hterm : ∀ r < s.re.rows, ∀ c < s.re.cols, (out c).getD r 0 =
      (if norm = true ∧ c = f then energy s f / energy s 0 else 1) *
          delayedBy (lat f - lat c) (fun k => s.sample k c) r := by
    intro r hr c hc
    by_cases hcf : c = f
    · rw [(hcol c).2 (fun h => h.2 hcf), colOf_getD, if_pos (by omega), hval r hr c hc, hcf, Nat.sub_self]
      unfold delayedBy
      rw [if_neg (Nat.not_lt_zero r), Nat.sub_zero]
      dsimp only
      rw [sample_in s r f hr hf.inside]
      simp
    · rw [(hcol c).1 ⟨List.mem_range.2 hc, hcf⟩ r hr, if_neg (fun h => hcf h.2), one_mul]
  have habs : s.constrain = true → ∀ r < s.re.rows, ∀ c < s.re.cols, |(out c).getD r 0| ≤ 1 := by
    intro hc' r hr c hc
    by_cases hw : norm = true ∧ c = f
    · rw [(hcol c).2 (fun h => h.2 hw.2), colOf_getD, if_pos (by omega), hval r hr c hc, if_pos hw.1, mul_comm]
      exact hfit hw.1 hc' c hc r hr
    · rw [hterm r hr c hc, if_neg hw, one_mul]
      exact sample_abs s hs hc' _ _ _
  have hC : (0 : ℝ) < s.re.cols := by
    have : (2 : ℝ) ≤ s.re.cols := by exact_mod_cast hcols
    linarith
  unfold averageTime
  rw [if_neg (by omega), havg]
  dsimp only
  rw [argmax_follow s lat f hf]
  dsimp only
  rw [hout]
  dsimp only
  rw [setData_ok]
  · refine ⟨_, rfl, ⟨rfl, rfl⟩, fun r hr => ?_⟩
    refine Eq.trans (if_pos ⟨hr, (show 0 < 1 by omega)⟩) ?_
    show (∑ c ∈ range s.re.cols, (out c).getD r 0) / (s.re.cols : ℝ) = _
    rw [sum_congr rfl fun c hc => hterm r hr c (mem_range.1 hc)]
  · show 1 ≤ s.re.rows
    omega
  · show ¬ (s.re.rows = 1 ∧ 1 = 1)
    omega
  · intro hc'
    rw [hcon] at hc'
    refine ⟨le_refl 1, fun r hr c _ => ?_, fun f hf => absurd hf (by simp)⟩
    show |(∑ c ∈ range s.re.cols, (out c).getD r 0) / (s.re.cols : ℝ)| ≤ 1
    rw [abs_div, abs_of_pos hC, div_le_one hC]
    calc |∑ c ∈ range s.re.cols, (out c).getD r 0| ≤ ∑ c ∈ range s.re.cols, |(out c).getD r 0| :=
          abs_sum_le_sum_abs _ _
      _ ≤ ∑ c ∈ range s.re.cols, (1 : ℝ) := sum_le_sum fun c hc => habs hc' r hr c (mem_range.1 hc)
      _ = s.re.cols := by simp

/-- Without normalization the average is the mean of the channels after each one was delayed to the largest
latency. -/
theorem C86_average_partial (s : State ℝ) (hs : Valid s) (him : s.im = none) (hcols : 2 ≤ s.re.cols)
    (fs : ℕ) (hfs : 1 ≤ fs) (lat : ℕ → ℕ) (f : ℕ) (hf : Follows s lat f) :
    ∃ a, averageTime s fs false (fun c => (lat c : ℝ)) = .ok a ∧ a.HasShape s.re.rows 1 ∧
      ∀ r < s.re.rows, a.sample r 0 =
        (∑ c ∈ range s.re.cols, delayedBy (lat f - lat c) (fun k => s.sample k c) r) / s.re.cols := by
  obtain ⟨a, h1, h2, h3⟩ := C86_average_weights s hs him hcols fs hfs lat f hf false (by simp) (by simp)
  refine ⟨a, h1, h2, fun r hr => ?_⟩
  rw [h3 r hr]
  simp

/-- Copies of one response with different delays: the average is the response with the largest delay. -/
theorem C86_copies (s : State ℝ) (hs : Valid s) (him : s.im = none) (hcols : 2 ≤ s.re.cols)
    (fs : ℕ) (hfs : 1 ≤ fs) (lat : ℕ → ℕ) (f : ℕ) (hf : Follows s lat f) (h : ℕ → ℝ)
    (hcopy : ∀ c < s.re.cols, ∀ r < s.re.rows, s.sample r c = delayedBy (lat c) h r) :
    ∃ a, averageTime s fs false (fun c => (lat c : ℝ)) = .ok a ∧ a.HasShape s.re.rows 1 ∧
      ∀ r < s.re.rows, a.sample r 0 = delayedBy (lat f) h r := by
  obtain ⟨a, h1, h2, h3⟩ := C86_average_partial s hs him hcols fs hfs lat f hf
  refine ⟨a, h1, h2, fun r hr => ?_⟩
  have hC : (s.re.cols : ℝ) ≠ 0 := by
    have : (2 : ℝ) ≤ s.re.cols := by exact_mod_cast hcols
    linarith
  rw [h3 r hr, sum_congr rfl (g := fun _ => delayedBy (lat f) h r), sum_const, card_range, nsmul_eq_mul,
    mul_div_cancel_left₀ _ hC]
  intro c hc
  have hc := mem_range.1 hc
  have hle := hf.largest c hc
  unfold delayedBy
  by_cases hlt : r < lat f - lat c
  · rw [if_pos hlt, if_pos (by omega)]
  · rw [if_neg hlt]
    dsimp only
    rw [hcopy c hc (r - (lat f - lat c)) (by omega)]
    unfold delayedBy
    by_cases h4 : r < lat f
    · rw [if_pos (by omega), if_pos h4]
    · rw [if_neg (by omega), if_neg h4, show r - (lat f - lat c) - lat c = r - lat f by omega]

/-- If no channel has a larger latency than the first one, the normalization of the energies has no
effect on the average in the time domain. -/
theorem C86_normalize_wrong (s : State ℝ) (hs : Valid s) (him : s.im = none) (hcols : 2 ≤ s.re.cols)
    (fs : ℕ) (hfs : 1 ≤ fs) (lat : ℕ → ℕ) (hf : Follows s lat 0) (he : energy s 0 ≠ 0)
    (hfit : s.constrain = true → ∀ c < s.re.cols, ∀ r < s.re.rows,
      |s.re.val r c * (energy s c / energy s 0)| ≤ 1) :
    ∃ a b, averageTime s fs true (fun c => (lat c : ℝ)) = .ok a ∧
      averageTime s fs false (fun c => (lat c : ℝ)) = .ok b ∧
      ∀ r < s.re.rows, a.sample r 0 = b.sample r 0 := by
  obtain ⟨a, h1, -, h3⟩ := C86_average_weights s hs him hcols fs hfs lat 0 hf true (fun _ => he)
    (fun _ => hfit)
  obtain ⟨b, h4, -, h5⟩ := C86_average_partial s hs him hcols fs hfs lat 0 hf
  refine ⟨a, b, h1, h4, fun r hr => ?_⟩
  rw [h3 r hr, h5 r hr]
  simp [div_self he]

/-- If the last channel is the followed one and quieter by the factor `g` than the first, it is made even
quieter, with the factor `g²`, instead of louder by `1 / g`. -/
theorem C86_normalize_wrong_way (s : State ℝ) (hs : Valid s) (him : s.im = none) (hcols : s.re.cols = 2)
    (fs : ℕ) (hfs : 1 ≤ fs) (lat : ℕ → ℕ) (hf : Follows s lat 1) (he : energy s 0 ≠ 0) (g : ℝ)
    (hg : energy s 1 = g ^ 2 * energy s 0) (hcon : s.constrain = false) :
    ∃ a, averageTime s fs true (fun c => (lat c : ℝ)) = .ok a ∧
      ∀ r < s.re.rows, a.sample r 0 =
        (delayedBy (lat 1 - lat 0) (fun k => s.sample k 0) r + g ^ 2 * s.sample r 1) / 2 := by
  obtain ⟨a, h1, -, h3⟩ := C86_average_weights s hs him (by omega) fs hfs lat 1 hf true (fun _ => he)
    (fun _ h => absurd h (by simp [hcon]))
  refine ⟨a, h1, fun r hr => ?_⟩
  rw [h3 r hr, hcols, sum_range_succ, sum_range_one, hg, mul_div_assoc, div_self he]
  simp [delayedBy]

/-- With the average of magnitudes and phases, the normalization never has an effect. -/
theorem C86_spectral_normalize_wrong (spectral : Mat ℝ → ℕ → ℝ) (s : State ℝ) (hs : Valid s)
    (hcols : 2 ≤ s.re.cols) (he : energy s 0 ≠ 0) :
    averageSpectral spectral s true = averageSpectral spectral s false := by
  have hshape := hs.shape
  unfold averageSpectral
  simp only [if_neg (show ¬ s.re.cols ≤ 1 by omega)]
  have h1 : ∃ avg, normalized s true = .ok avg ∧ avg.constrain = s.constrain := by
    unfold normalized
    rw [if_pos rfl, if_neg he]
    obtain ⟨s', h, hc, -⟩ := setData_scaled s
      ⟨s.re.rows, s.re.cols, fun r c => s.re.val r c * (energy s c / energy s 0), none⟩ hshape
      (by show ¬ (s.re.rows = 1 ∧ s.re.cols = 1); omega) (by show 1 ≤ s.re.cols; omega)
    exact ⟨s', h, hc⟩
  obtain ⟨avg, h1, h2⟩ := h1
  have h3 : normalized s false = .ok s := by simp [normalized]
  rw [h1, h3]
  dsimp only
  unfold setData
  simp only [h2]

/-! ### Examples -/

/-- Two copies of an impulse, the second one half as loud and one sample later. -/
noncomputable def pair : State ℝ :=
  ⟨⟨4, 2, fun r c => if r = c + 1 then (if c = 0 then 1 else 1 / 2) else 0⟩, none, false, 1⟩

theorem pair_valid : Valid pair :=
  ⟨by simp [pair], by simp [pair], fun h => absurd h (by simp [pair])⟩

theorem pair_energy0 : energy pair 0 = 1 := by
  simp [energy, pair]

theorem pair_energy1 : energy pair 1 = (1 / 2) ^ 2 * energy pair 0 := by
  rw [pair_energy0]
  simp [energy, pair]

theorem pair_follows : Follows pair (fun c => c + 1) 1 :=
  ⟨by simp [pair], fun c hc => by have : c < 2 := hc; omega, fun c hc => by omega,
    fun c hc => by show 1 + 1 - (c + 1) < 4; omega⟩

example : ∃ a, averageTime pair 100 true (fun c => ((c + 1 : ℕ) : ℝ)) = .ok a ∧ a.sample 2 0 = 9 / 16 := by
  obtain ⟨a, h1, h2⟩ := C86_normalize_wrong_way pair pair_valid rfl rfl 100 (by norm_num) (fun c => c + 1)
    pair_follows (by rw [pair_energy0]; exact one_ne_zero) (1 / 2) pair_energy1 rfl
  refine ⟨a, h1, ?_⟩
  rw [h2 2 (by show 2 < 4; norm_num)]
  norm_num [delayedBy, State.sample, pair]

/-- Equal latencies. -/
example : ∃ a b, averageTime pair 100 true (fun _ => ((5 : ℕ) : ℝ)) = .ok a ∧
    averageTime pair 100 false (fun _ => ((5 : ℕ) : ℝ)) = .ok b ∧ ∀ r < 4, a.sample r 0 = b.sample r 0 :=
  C86_normalize_wrong pair pair_valid rfl (by show 2 ≤ 2; norm_num) 100 (by norm_num) (fun _ => 5)
    ⟨by simp [pair], fun _ _ => le_rfl, fun c hc => by omega, fun _ _ => by show 5 - 5 < 4; omega⟩
    (by rw [pair_energy0]; exact one_ne_zero) (fun h => absurd h (by simp [pair]))

example : ∃ a, averageTime pair 100 false (fun c => ((c + 1 : ℕ) : ℝ)) = .ok a ∧ a.sample 2 0 = 3 / 4 := by
  obtain ⟨a, h1, -, h2⟩ := C86_average_partial pair pair_valid rfl (by show 2 ≤ 2; norm_num) 100 (by norm_num)
    (fun c => c + 1) 1 pair_follows
  refine ⟨a, h1, ?_⟩
  rw [h2 2 (by show 2 < 4; norm_num), show pair.re.cols = 2 from rfl, sum_range_succ, sum_range_one]
  norm_num [delayedBy, State.sample, pair]

/-- Two channels with their impulses at 3 and 4 in the first and at 3 + 4 in the second channel. -/
example : ∃ imp, diracs 10 2 100 (fun c => ((c + 3 : ℕ) : ℝ)) = .ok imp ∧ imp.sample 3 0 = 1 ∧
    imp.sample 4 1 = 0 ∧ imp.sample 7 1 = 1 := by
  obtain ⟨imp, h1, -, h2⟩ := C86_dirac_positions 10 2 100 (by norm_num) (fun c => c + 3) (by norm_num)
    (by norm_num) (fun c hc => by omega)
  refine ⟨imp, h1, ?_, ?_, ?_⟩
  · rw [h2 0 (by norm_num) 3 (by norm_num), if_pos (by simp)]
  · rw [h2 1 (by norm_num) 4 (by norm_num), if_neg (by simp [sum_range_succ])]
  · rw [h2 1 (by norm_num) 7 (by norm_num), if_pos (by simp [sum_range_succ])]

end Verif.AverageIR
