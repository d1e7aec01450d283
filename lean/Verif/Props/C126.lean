import Verif.Model.Append
import Verif.Props.C42

/-!
# C126: appending spectra and filter banks
-/

namespace Verif.Props.C126

open Verif.Append Verif.SpecConv Verif.Spectrum Verif.Bands

/-- The column at which the channels of spectrum `i` start. -/
def offset (ss : List CSpec) (i : ℕ) : ℕ := ((ss.take i).map fun s => s.data.cols).sum

/-- The number of channels of all spectra. -/
def total (ss : List CSpec) : ℕ := (ss.map fun s => s.data.cols).sum

theorem all_shape {sp : Spline} {s : CSpec} {freqs : List ℝ} {o : Output} {A : Mat ℂ}
    (h : interpolateAll sp s freqs o = .ok A) :
    A.rows = freqs.length ∧ A.cols = s.data.cols := by
  unfold interpolateAll at h
  split_ifs at h
  · injection h with h
    subst h
    exact ⟨rfl, rfl⟩
  · injection h with h
    subst h
    exact ⟨rfl, rfl⟩

theorem loop_ok (sp : Spline) (freqs : List ℝ) (o : Output) (ss : List CSpec)
    (h : ∀ s ∈ ss, ∃ A, interpolateAll sp s freqs o = .ok A) :
    ∃ B, appendLoop sp freqs o ss = .ok B := by
  induction ss with
  | nil => exact ⟨_, rfl⟩
  | cons s ss ih =>
    obtain ⟨A, hA⟩ := h s (by simp)
    obtain ⟨B, hB⟩ := ih fun t ht => h t (by simp [ht])
    exact ⟨besides A B, by rw [appendLoop, hA]; dsimp only; rw [hB]⟩

theorem loop_spec (sp : Spline) (freqs : List ℝ) (o : Output) (ss : List CSpec) (B : Mat ℂ)
    (h : appendLoop sp freqs o ss = .ok B) :
    B.rows = freqs.length ∧ B.cols = total ss ∧
    ∀ (i : ℕ) (hi : i < ss.length), ∃ A, interpolateAll sp ss[i] freqs o = .ok A ∧
      ∀ c < ss[i].data.cols, ∀ r, B.val r (offset ss i + c) = A.val r c := by
  induction ss generalizing B with
  | nil =>
    injection h with h
    subst h
    exact ⟨rfl, rfl, fun i hi => absurd hi (by simp)⟩
  | cons s ss ih =>
    rw [appendLoop] at h
    cases hA : interpolateAll sp s freqs o with
    | error e => rw [hA] at h; cases h
    | ok A =>
      rw [hA] at h
      dsimp only at h
      cases hC : appendLoop sp freqs o ss with
      | error e => rw [hC] at h; cases h
      | ok C =>
        rw [hC] at h
        injection h with h
        subst h
        obtain ⟨h1, h2, h3⟩ := ih C hC
        obtain ⟨a1, a2⟩ := all_shape hA
        refine ⟨a1, ?_, fun i hi => ?_⟩
        · show A.cols + C.cols = _
          rw [a2, h2]
          simp [total]
        · cases i with
          | zero =>
            refine ⟨A, hA, fun c hc r => ?_⟩
            simp only [List.getElem_cons_zero] at hc
            simp only [besides, offset, List.take_zero, List.map_nil, List.sum_nil, zero_add]
            rw [if_pos (by omega)]
          | succ i =>
            obtain ⟨A', hA', hv⟩ := h3 i (by simpa using hi)
            refine ⟨A', hA', fun c hc r => ?_⟩
            rw [← hv c hc r]
            simp only [besides, offset, List.take_succ_cons, List.map_cons, List.sum_cons]
            rw [if_neg (by omega)]
            congr 1
            omega

/-- Whether complex values are appended. -/
def complexAppend (ss : List CSpec) (cia : Bool) : Bool :=
  cia && match ss with
    | [] => false
    | s :: _ => !s.isMagnitude

/-- The frequencies of the first spectrum. -/
def firstFreqs (ss : List CSpec) : List ℝ :=
  match ss with
  | [] => []
  | s :: _ => s.freqs

theorem append_eq (sp : Spline) (ss : List CSpec) (cia : Bool) (h2 : 2 ≤ ss.length) :
    appendSpectra sp ss cia =
      if complexAppend ss cia = true ∧ ¬ ss.all (fun s => !s.isMagnitude) then
        .error .assertionError
      else match appendLoop sp (firstFreqs ss)
          (if complexAppend ss cia then .complex else .magnitude) ss with
        | .error e => .error e
        | .ok A => construct (firstFreqs ss) A (!complexAppend ss cia) := by
  match ss, h2 with
  | s0 :: s1 :: ss, _ => rfl

theorem upright_rows (A : Mat ℂ) (n : ℕ) (h : A.rows = n) (h2 : (upright A).rows = n) :
    upright A = A := by
  unfold upright at h2 ⊢
  split_ifs at h2 ⊢ with hc
  · exfalso
    have : A.T.rows = A.cols := rfl
    omega
  · rfl

theorem construct_iff (f : List ℝ) (A : Mat ℂ) (m : Bool) (t : CSpec) (hr : A.rows = f.length)
    (h : construct f A m = .ok t) :
    t = ⟨f, A, m, .power, .linear, .zeroPad⟩ ∧ A.cols ≤ A.rows := by
  unfold construct at h
  split_ifs at h with h1 h2 h3
  injection h with h
  have hu := upright_rows A f.length hr (not_not.1 h2)
  refine ⟨by rw [← h, hu], ?_⟩
  by_contra hc
  have : (upright A).rows = A.cols := by
    unfold upright
    rw [if_pos (by omega)]
    rfl
  rw [hu] at this
  omega

/-- Whenever spectra are joined, the result has the frequencies of the first one and the channels of
all of them in order, each one interpolated with the parameters of its own spectrum; there are never
more channels than frequencies.  The parameters of interpolation of the result are the default
ones. -/
theorem C126_channels (sp : Spline) (ss : List CSpec) (cia : Bool) (t : CSpec)
    (h : appendSpectra sp ss cia = .ok t) :
    2 ≤ ss.length ∧ t.freqs = firstFreqs ss ∧ t.data.rows = t.freqs.length ∧
    t.data.cols = total ss ∧ total ss ≤ t.freqs.length ∧ t.isMagnitude = !complexAppend ss cia ∧
    (t.domain = .power ∧ t.scheme = .linear ∧ t.edges = .zeroPad) ∧
    ∀ (i : ℕ) (hi : i < ss.length), ∃ A,
      interpolateAll sp ss[i] (firstFreqs ss)
        (if complexAppend ss cia then .complex else .magnitude) = .ok A ∧
      ∀ c < ss[i].data.cols, ∀ r, t.data.val r (offset ss i + c) = A.val r c := by
  have h2 : 2 ≤ ss.length := by
    match ss, h with
    | _ :: _ :: _, _ => simp
  rw [append_eq sp ss cia h2] at h
  generalize (if complexAppend ss cia then Output.complex else Output.magnitude) = o at h ⊢
  split_ifs at h with hc
  cases hL : appendLoop sp (firstFreqs ss) o ss with
  | error e => rw [hL] at h; cases h
  | ok B =>
    rw [hL] at h
    dsimp only at h
    obtain ⟨l1, l2, l3⟩ := loop_spec _ _ _ _ _ hL
    obtain ⟨rfl, hle⟩ := construct_iff _ _ _ _ l1 h
    refine ⟨h2, rfl, l1, l2, ?_, rfl, ⟨rfl, rfl, rfl⟩, l3⟩
    dsimp only
    omega

/-- A spectrum as the constructor makes it, with any parameters of interpolation. -/
structure Proper (s : CSpec) : Prop where
  nonneg : ∀ f ∈ s.freqs, 0 ≤ f
  ascending : Ascending s.freqs
  rows : s.data.rows = s.freqs.length
  magnitude : s.isMagnitude = true → ∀ r c, 0 ≤ (s.data.val r c).re ∧ (s.data.val r c).im = 0

/-- The splines return the values at the given frequencies. -/
def Interpolates (sp : Spline) : Prop :=
  ∀ (sch : Scheme) (f : List ℝ) (d : ℕ → ℝ), Ascending f → ∀ k < f.length, sp sch f d (f.getD k 0) = d k

/-- Parameters with which the spectrum can be interpolated to its own frequencies. -/
def Usable (s : CSpec) : Prop :=
  if s.scheme = .linear then (s.edges = .extend ∨ s.edges = .error) → s.data.cols = 1
  else 2 ≤ s.freqs.length

theorem splined_own (sp : Spline) (hsp : Interpolates sp) (s : CSpec) (hs : Proper s) (x : ℕ → ℂ)
    (k : ℕ) (hk : k < s.freqs.length) :
    splined sp s x (s.freqs.getD k 0) =
      interpolated s.domain s.edges s.freqs x (s.freqs.getD k 0) := by
  have h1 : ¬ s.freqs.getD (s.freqs.length - 1) 0 < s.freqs.getD k 0 :=
    not_lt.2 (hs.ascending.le (by omega) (by omega))
  have h2 : ¬ s.freqs.getD k 0 < s.freqs.getD 0 0 := not_lt.2 (hs.ascending.le (by omega) hk)
  unfold splined interpolated
  dsimp only
  rw [if_neg h1, if_neg h2, hsp _ _ _ hs.ascending k hk, hsp _ _ _ hs.ascending k hk,
    C42_interp_at_bin _ _ hs.ascending _ _ k hk, C42_interp_at_bin _ _ hs.ascending _ _ k hk,
    column_getD _ _ _ hk, column_getD _ _ _ hk]
  cases s.domain <;> rfl

theorem own_all (sp : Spline) (hsp : Interpolates sp) (s : CSpec) (hs : Proper s) (hu : Usable s)
    (o : Output) (ho : o = .complex → s.isMagnitude = false) :
    ∃ A, interpolateAll sp s s.freqs o = .ok A ∧ A.rows = s.freqs.length ∧
      A.cols = s.data.cols ∧ ∀ r < s.freqs.length, ∀ c, A.val r c =
        convert s.domain o (interpolated s.domain s.edges s.freqs (fun k => s.data.val k c)
          (s.freqs.getD r 0)) := by
  have h1 : ¬ (o = .complex ∧ s.isMagnitude = true) := by
    rintro ⟨a, b⟩
    rw [ho a] at b
    exact absurd b (by simp)
  have h2 : ¬ (s.edges = .error ∧ ∃ f ∈ s.freqs, f < s.freqs.getD 0 0 ∨
      s.freqs.getD (s.freqs.length - 1) 0 < f) := by
    rintro ⟨-, f, hf, h⟩
    obtain ⟨i, hi, rfl⟩ := List.getElem_of_mem hf
    rw [← List.getD_eq_getElem _ 0 hi] at h
    rcases h with h | h
    · exact absurd h (not_lt.2 (hs.ascending.le (by omega) hi))
    · exact absurd h (not_lt.2 (hs.ascending.le (by omega) (by omega)))
  unfold interpolateAll
  rw [if_neg h1, if_neg h2]
  unfold Usable at hu
  by_cases h3 : s.scheme = .linear
  · rw [if_pos h3] at hu ⊢
    rw [if_neg (fun h => h.2 (hu h.1))]
    exact ⟨_, rfl, rfl, rfl, fun r _ c => rfl⟩
  · rw [if_neg h3] at hu ⊢
    rw [if_neg (by omega)]
    refine ⟨_, rfl, rfl, rfl, fun r hr c => ?_⟩
    dsimp only
    rw [splined_own sp hsp s hs _ r hr]

theorem steps_of_ascending {f : List ℝ} (h : Ascending f) :
    ∀ i < f.length - 1, f.getD i 0 < f.getD (i + 1) 0 := fun i hi => h i (i + 1) (by omega) (by omega)

theorem construct_ok (f : List ℝ) (A : Mat ℂ) (m : Bool) (h0 : ∀ x ∈ f, 0 ≤ x) (ha : Ascending f)
    (hr : A.rows = f.length) (hc : A.cols ≤ A.rows)
    (hm : m = true → ∀ r < A.rows, ∀ c < A.cols, 0 ≤ (A.val r c).re) :
    construct f A m = .ok ⟨f, A, m, .power, .linear, .zeroPad⟩ := by
  have hu : upright A = A := by
    unfold upright
    rw [if_neg (by omega)]
  unfold construct
  rw [hu, if_neg (not_not.2 ⟨h0, steps_of_ascending ha⟩), if_neg (not_not.2 hr),
    if_neg (fun h => h.2 (hm h.1))]

/-- A column below the total belongs to a channel of one of the spectra. -/
theorem split_column (ss : List CSpec) (c : ℕ) (hc : c < total ss) :
    ∃ (i : ℕ) (hi : i < ss.length) (d : ℕ), d < ss[i].data.cols ∧ c = offset ss i + d := by
  induction ss generalizing c with
  | nil => exact absurd hc (by simp [total])
  | cons s ss ih =>
    by_cases h : c < s.data.cols
    · exact ⟨0, by simp, c, by simpa using h, by simp [offset]⟩
    · obtain ⟨i, hi, d, hd, he⟩ := ih (c - s.data.cols) (by
        simp only [total, List.map_cons, List.sum_cons] at hc ⊢
        omega)
      refine ⟨i + 1, by simpa using hi, d, by simpa using hd, ?_⟩
      simp only [offset, List.take_succ_cons, List.map_cons, List.sum_cons] at he ⊢
      omega

theorem same_grid (sp : Spline) (hsp : Interpolates sp) (ss : List CSpec) (cia : Bool)
    (h2 : 2 ≤ ss.length) (hP : ∀ s ∈ ss, Proper s ∧ Usable s ∧ s.freqs = firstFreqs ss)
    (hC : complexAppend ss cia = true → ∀ s ∈ ss, s.isMagnitude = false)
    (hT : total ss ≤ (firstFreqs ss).length) :
    ∃ t, appendSpectra sp ss cia = .ok t ∧
      ∀ (i : ℕ) (hi : i < ss.length), ∀ c < ss[i].data.cols, ∀ r < (firstFreqs ss).length,
        t.data.val r (offset ss i + c) =
          convert ss[i].domain (if complexAppend ss cia then .complex else .magnitude)
            (interpolated ss[i].domain ss[i].edges ss[i].freqs (fun k => ss[i].data.val k c)
              (ss[i].freqs.getD r 0)) := by
  set o : Output := if complexAppend ss cia then .complex else .magnitude with ho
  have hA : ∀ s ∈ ss, ∃ A, interpolateAll sp s (firstFreqs ss) o = .ok A ∧
      A.rows = s.freqs.length ∧ A.cols = s.data.cols ∧ ∀ r < s.freqs.length, ∀ c, A.val r c =
        convert s.domain o (interpolated s.domain s.edges s.freqs (fun k => s.data.val k c)
          (s.freqs.getD r 0)) := by
    intro s hs
    obtain ⟨a, b, e⟩ := hP s hs
    rw [← e]
    refine own_all sp hsp s a b o fun hco => ?_
    refine hC ?_ s hs
    by_contra hn
    rw [ho, if_neg hn] at hco
    cases hco
  obtain ⟨B, hB⟩ := loop_ok sp (firstFreqs ss) o ss fun s hs => by
    obtain ⟨A, hA, -⟩ := hA s hs
    exact ⟨A, hA⟩
  obtain ⟨l1, l2, l3⟩ := loop_spec _ _ _ _ _ hB
  have hval : ∀ (i : ℕ) (hi : i < ss.length), ∀ c < ss[i].data.cols,
      ∀ r < (firstFreqs ss).length, B.val r (offset ss i + c) = convert ss[i].domain o
        (interpolated ss[i].domain ss[i].edges ss[i].freqs (fun k => ss[i].data.val k c)
          (ss[i].freqs.getD r 0)) := by
    intro i hi c hc r hr
    obtain ⟨A, e1, e2⟩ := l3 i hi
    obtain ⟨A', e1', -, -, e4⟩ := hA ss[i] (List.getElem_mem hi)
    rw [e1] at e1'
    injection e1' with e
    subst e
    rw [e2 c hc r, e4 r (by rw [(hP ss[i] (List.getElem_mem hi)).2.2]; exact hr) c]
  obtain ⟨s0, hs0, hf⟩ : ∃ s ∈ ss, s.freqs = firstFreqs ss := by
    match ss, h2 with
    | s :: _, _ => exact ⟨s, by simp, rfl⟩
  have hok := construct_ok (firstFreqs ss) B (!complexAppend ss cia)
    (by rw [← hf]; exact (hP s0 hs0).1.nonneg) (by rw [← hf]; exact (hP s0 hs0).1.ascending) l1
    (by omega) (by
      intro hm r hr c hc
      obtain ⟨i, hi, d, hd, rfl⟩ := split_column ss c (by omega)
      have hom : o = .magnitude := by
        rw [ho, if_neg]
        intro h
        rw [h] at hm
        exact absurd hm (by simp)
      have hp := hP ss[i] (List.getElem_mem hi)
      rw [hval i hi d hd r (by omega), hom, C42_own_bins_partial _ _ _ _ hp.1.ascending _ r
        (by rw [hp.2.2]; omega) (by simp)]
      simp [stored])
  refine ⟨⟨firstFreqs ss, B, !complexAppend ss cia, .power, .linear, .zeroPad⟩, ?_, hval⟩
  rw [append_eq sp ss cia h2, if_neg, ← ho, hB]
  · exact hok
  · rintro ⟨hc, hn⟩
    apply hn
    rw [List.all_eq_true]
    intro s hs
    rw [hC hc s hs]
    rfl

/-- Spectra with the same frequencies are joined without any change of their values: magnitudes with
every domain of interpolation, complex values with the complex domains.  (For complex spectra with
the other domains, among them the default one, see `C126_complex_default_wrong`.) -/
theorem C126_same_grid_partial (sp : Spline) (hsp : Interpolates sp) (ss : List CSpec) (cia : Bool)
    (h2 : 2 ≤ ss.length) (hP : ∀ s ∈ ss, Proper s ∧ Usable s ∧ s.freqs = firstFreqs ss)
    (hC : complexAppend ss cia = true → ∀ s ∈ ss, s.isMagnitude = false ∧
      (s.domain = .complex ∨ s.domain = .magnitudePhase))
    (hT : total ss ≤ (firstFreqs ss).length) :
    ∃ t, appendSpectra sp ss cia = .ok t ∧
      ∀ (i : ℕ) (hi : i < ss.length), ∀ c < ss[i].data.cols, ∀ r < (firstFreqs ss).length,
        t.data.val r (offset ss i + c) = if complexAppend ss cia || ss[i].isMagnitude
          then ss[i].data.val r c else ((‖ss[i].data.val r c‖ : ℝ) : ℂ) := by
  obtain ⟨t, h1, h3⟩ := same_grid sp hsp ss cia h2 hP (fun h s hs => (hC h s hs).1) hT
  refine ⟨t, h1, fun i hi c hc r hr => ?_⟩
  obtain ⟨p1, p2, p3⟩ := hP ss[i] (List.getElem_mem hi)
  rw [h3 i hi c hc r hr]
  cases hca : complexAppend ss cia with
  | true =>
    rw [if_pos rfl, C42_own_bins_partial _ _ _ _ p1.ascending _ r (by rw [p3]; exact hr)
      (fun _ => (hC hca _ (List.getElem_mem hi)).2)]
    simp [stored]
  | false =>
    rw [if_neg (by simp), C42_own_bins_partial _ _ _ _ p1.ascending _ r (by rw [p3]; exact hr)
      (by simp)]
    cases hm : ss[i].isMagnitude with
    | false => simp [stored]
    | true =>
      obtain ⟨q1, q2⟩ := p1.magnitude hm r c
      simp only [stored, Bool.or_true, if_true]
      refine Complex.ext ?_ ?_
      · rw [Complex.ofReal_re]
        have : ss[i].data.val r c = (((ss[i].data.val r c).re : ℝ) : ℂ) :=
          Complex.ext (by simp) (by simp [q2])
        rw [this, Complex.norm_real, Real.norm_eq_abs, Complex.ofReal_re, abs_of_nonneg q1]
      · rw [Complex.ofReal_im, q2]

/-- Complex spectra with the parameters of the constructor (domain of power) are joined to the powers
of their values: magnitudes are squared and phases lost, in a result that is marked as complex. -/
theorem C126_complex_default_wrong (sp : Spline) (hsp : Interpolates sp) (ss : List CSpec)
    (h2 : 2 ≤ ss.length) (hP : ∀ s ∈ ss, Proper s ∧ Usable s ∧ s.freqs = firstFreqs ss)
    (hC : ∀ s ∈ ss, s.isMagnitude = false ∧ s.domain = .power)
    (hT : total ss ≤ (firstFreqs ss).length) :
    ∃ t, appendSpectra sp ss true = .ok t ∧ t.isMagnitude = false ∧
      ∀ (i : ℕ) (hi : i < ss.length), ∀ c < ss[i].data.cols, ∀ r < (firstFreqs ss).length,
        t.data.val r (offset ss i + c) = ((‖ss[i].data.val r c‖ ^ 2 : ℝ) : ℂ) := by
  have hca : complexAppend ss true = true := by
    match ss, h2 with
    | s :: _ :: _, _ =>
      have := (hC s (by simp)).1
      simp [complexAppend, this]
  obtain ⟨t, h1, h3⟩ := same_grid sp hsp ss true h2 hP (fun h s hs => (hC s hs).1) hT
  refine ⟨t, h1, ?_, fun i hi c hc r hr => ?_⟩
  · have := (C126_channels sp ss true t h1).2.2.2.2.2.1
    rw [this, hca]
    rfl
  · obtain ⟨p1, p2, p3⟩ := hP ss[i] (List.getElem_mem hi)
    have hd := (hC ss[i] (List.getElem_mem hi)).2
    rw [h3 i hi c hc r hr, if_pos hca]
    rw [hd]
    exact C42_complex_output_wrong _ _ p1.ascending _ r (by rw [p3]; exact hr)

/-- A complex spectrum with two bins as the constructor makes it. -/
noncomputable def witness : CSpec :=
  ⟨[0, 1], ⟨2, 1, fun _ _ => 2 * Complex.I⟩, false, .power, .linear, .zeroPad⟩

theorem witness_proper : Proper witness ∧ Usable witness := by
  refine ⟨⟨by simp [witness], ?_, rfl, fun h => by simp [witness] at h⟩, ?_⟩
  · intro i j hij hj
    have hj' : j < 2 := hj
    obtain ⟨rfl, rfl⟩ : i = 0 ∧ j = 1 := by omega
    simp [witness]
  · unfold Usable
    rw [if_pos (by rfl)]
    intro h
    simp [witness] at h

/-- Two spectra with the value `2i` are joined to a spectrum with the value 4. -/
theorem C126_complex_witness_wrong (sp : Spline) (hsp : Interpolates sp) :
    construct [0, 1] ⟨2, 1, fun _ _ => 2 * Complex.I⟩ false = .ok witness ∧
    ∃ t, appendSpectra sp [witness, witness] true = .ok t ∧ t.data.val 0 0 = 4 ∧
      witness.data.val 0 0 = 2 * Complex.I := by
  have hw := witness_proper
  refine ⟨construct_ok _ _ _ hw.1.nonneg hw.1.ascending rfl (by simp) (by simp), ?_⟩
  obtain ⟨t, h1, -, h3⟩ := C126_complex_default_wrong sp hsp [witness, witness] (by simp)
    (by simp [hw.1, hw.2, firstFreqs]) (by simp [witness]) (by simp [total, witness, firstFreqs])
  refine ⟨t, h1, ?_, rfl⟩
  have := h3 0 (by simp) 0 (by simp [witness]) 0 (by simp [firstFreqs, witness])
  simp only [offset, List.take_zero, List.map_nil, List.sum_nil, add_zero] at this
  rw [this]
  norm_num [witness]

/-- The value at the end of the range of a channel that is closer to a frequency outside. -/
noncomputable def closest (s : CSpec) (c : ℕ) (f : ℝ) : ℂ :=
  if f < s.freqs.getD 0 0 then s.data.val 0 c else s.data.val (s.freqs.length - 1) c

/-- With the splines and magnitudes as output, frequencies outside of the range get zero, one or the
magnitude at the closer end of the range, unless the complex values were interpolated. -/
theorem C126_outside_partial (sp : Spline) (s : CSpec) (freqs : List ℝ) (A : Mat ℂ)
    (hs : s.scheme ≠ .linear) (hd : s.domain ≠ .complex)
    (hinc : s.freqs.getD 0 0 ≤ s.freqs.getD (s.freqs.length - 1) 0)
    (h : interpolateAll sp s freqs .magnitude = .ok A) (r c : ℕ)
    (hout : freqs.getD r 0 < s.freqs.getD 0 0 ∨ s.freqs.getD (s.freqs.length - 1) 0 < freqs.getD r 0) :
    A.val r c = match s.edges with
      | .zeroPad => 0
      | .onePad => 1
      | _ => ((‖closest s c (freqs.getD r 0)‖ : ℝ) : ℂ) := by
  unfold interpolateAll at h
  rw [if_neg (by rintro ⟨h, -⟩; cases h)] at h
  split_ifs at h with h1 h3
  injection h with h
  subst h
  dsimp only
  have key : splined sp s (fun k => s.data.val k c) (freqs.getD r 0) =
      ((match s.edges with
        | .zeroPad => 0
        | .onePad => 1
        | _ => interpData s.domain (fun k => s.data.val k c)
          (if freqs.getD r 0 < s.freqs.getD 0 0 then 0 else s.freqs.length - 1) : ℝ) : ℂ) := by
    unfold splined
    dsimp only
    by_cases ha : s.freqs.getD (s.freqs.length - 1) 0 < freqs.getD r 0
    · rw [if_pos ha, if_neg (by linarith)]
      cases s.edges <;> rfl
    · have hb := hout.resolve_right ha
      rw [if_neg ha, if_pos hb, if_pos hb]
      cases s.edges <;> rfl
  rw [key]
  unfold closest
  generalize s.edges = e
  generalize hdom : s.domain = dom at hd ⊢
  split_ifs <;> cases dom <;> cases e <;> simp [convert, interpData] at hd ⊢ <;>
    rw [← Complex.ofReal_pow, Complex.ofReal_re, Real.sqrt_sq (norm_nonneg _)]

/-- If the complex values are interpolated, only the real part of the value at the end is
extended. -/
theorem C126_outside_wrong (sp : Spline) (s : CSpec) (freqs : List ℝ) (A : Mat ℂ)
    (hs : s.scheme ≠ .linear) (hd : s.domain = .complex) (he : s.edges = .extend)
    (h : interpolateAll sp s freqs .complex = .ok A) (r c : ℕ)
    (hinc : s.freqs.getD 0 0 ≤ s.freqs.getD (s.freqs.length - 1) 0)
    (hout : freqs.getD r 0 < s.freqs.getD 0 0 ∨ s.freqs.getD (s.freqs.length - 1) 0 < freqs.getD r 0) :
    A.val r c = ((closest s c (freqs.getD r 0)).re : ℂ) := by
  unfold interpolateAll at h
  split_ifs at h with h0 h1 h3
  injection h with h
  subst h
  dsimp only
  unfold splined closest
  rw [hd, he]
  dsimp only
  by_cases ha : s.freqs.getD (s.freqs.length - 1) 0 < freqs.getD r 0
  · rw [if_pos ha, if_neg (by linarith)]
    rfl
  · have hb := hout.resolve_right ha
    rw [if_neg ha, if_pos hb, if_pos hb]
    rfl

/-- A spectrum from 1 Hz to 2 Hz at 0 Hz and 3 Hz. -/
example (sp : Spline) : ∃ A, interpolateAll sp
    ⟨[1, 2], ⟨2, 1, fun r _ => 2 * Complex.I + r⟩, false, .complex, .pchip, .extend⟩ [0, 3] .complex = .ok A ∧
    A.val 1 0 = 1 ∧
    closest ⟨[1, 2], ⟨2, 1, fun r _ => 2 * Complex.I + r⟩, false, .complex, .pchip, .extend⟩ 0 3 =
      2 * Complex.I + 1 := by
  refine ⟨_, by rw [interpolateAll, if_neg (by simp), if_neg (by simp), if_neg (by simp),
    if_neg (by simp)], ?_, ?_⟩
  · norm_num [splined, convert, edgeValues, interpData]
  · norm_num [closest]

/-- Joining is refused for fewer than two spectra, for magnitudes among complex spectra, and if there
would be more channels than frequencies. -/
theorem C126_refused (sp : Spline) (ss : List CSpec) (cia : Bool) :
    (ss.length < 2 → appendSpectra sp ss cia = .error .assertionError) ∧
    (complexAppend ss cia = true → (∃ s ∈ ss, s.isMagnitude = true) →
      appendSpectra sp ss cia = .error .assertionError) ∧
    ((firstFreqs ss).length < total ss → ∀ t, appendSpectra sp ss cia ≠ .ok t) := by
  have hshort : ss.length < 2 → appendSpectra sp ss cia = .error .assertionError := by
    intro h
    match ss, h with
    | [], _ => rfl
    | [_], _ => rfl
  refine ⟨hshort, fun hc ⟨s, hs, hm⟩ => ?_, fun h t ht => ?_⟩
  · by_cases h2 : ss.length < 2
    · exact hshort h2
    · rw [append_eq sp ss cia (by omega), if_pos]
      refine ⟨hc, fun ha => ?_⟩
      rw [List.all_eq_true] at ha
      have := ha s hs
      rw [hm] at this
      exact absurd this (by simp)
  · obtain ⟨-, h1, -, -, h5, -⟩ := C126_channels sp ss cia t ht
    rw [h1] at h5
    omega

/-! ### Filter banks -/

/-- A filter bank whose book-keeping is right (see C37): only filters, at least one, and the
sampling rate that belongs to them. -/
structure Kept (f : FB) : Prop where
  filters : f.filters ≠ [] ∧ ∀ x ∈ f.filters, x.isFilter = true
  rate : if f.same then ∃ r, f.rate = some (.one r) ∧ ∀ x ∈ f.filters, x.rate? = some r
    else f.rate = some (.many (f.filters.filterMap FItem.rate?))

theorem filter_rate (x : FItem) (h : x.isFilter = true) : ∃ r, x.rate? = some r := by
  cases x with
  | filter i r => exact ⟨r, rfl⟩
  | foreign r => exact absurd h (by simp [FItem.isFilter])

theorem mapM_rates (l : List FItem) (h : ∀ x ∈ l, x.isFilter = true) :
    l.mapM FItem.rate? = some (l.filterMap FItem.rate?) := by
  induction l with
  | nil => rfl
  | cons x l ih =>
    obtain ⟨r, hr⟩ := filter_rate x (h x (by simp))
    rw [List.mapM_cons, hr, ih fun y hy => h y (by simp [hy])]
    simp [hr]

theorem set_ok (st f : FB) (hs : Kept st) (hf : Kept f) (he : f.same = st.same)
    (hr : st.same = true → f.rate = st.rate) :
    ∃ t, setFilters st (st.filters ++ f.filters) = (t, none) ∧ Kept t ∧ t.same = st.same ∧
      t.filters = st.filters ++ f.filters ∧ (st.same = true → t.rate = st.rate) := by
  have hne : st.filters ++ f.filters ≠ [] := by simp [hs.filters.1]
  have hall : ∀ x ∈ st.filters ++ f.filters, x.isFilter = true := by
    intro x hx
    rcases List.mem_append.1 hx with h | h
    · exact hs.filters.2 x h
    · exact hf.filters.2 x h
  have hsr := hs.rate
  have hfr := hf.rate
  rw [he] at hfr
  obtain ⟨f0, l, hl⟩ : ∃ f0 l, st.filters ++ f.filters = f0 :: l := by
    cases h : st.filters ++ f.filters with
    | nil => exact absurd h hne
    | cons a l => exact ⟨a, l, rfl⟩
  cases hb : st.same with
  | true =>
    rw [hb] at hsr hfr
    obtain ⟨r, e1, e2⟩ := hsr
    obtain ⟨r', e1', e2'⟩ := hfr
    have e3 := hr hb
    rw [e1, e1'] at e3
    injection e3 with e3
    injection e3 with e3
    subst e3
    have hrates : ∀ x ∈ st.filters ++ f.filters, x.rate? = some r' := by
      intro x hx
      rcases List.mem_append.1 hx with h | h
      · exact e2 x h
      · exact e2' x h
    have hok : filtersOk true r' (f0 :: l) = true := by
      unfold filtersOk
      rw [List.all_eq_true]
      intro x hx
      rw [← hl] at hx
      simp [hall x hx, hrates x hx]
    refine ⟨⟨true, f0 :: l, some (.one r')⟩, ?_, ⟨⟨by simp, ?_⟩, ?_⟩, rfl, hl.symm, ?_⟩
    · rw [hl]
      unfold setFilters
      dsimp only
      rw [hb, if_pos rfl, hrates f0 (by rw [hl]; simp)]
      dsimp only
      rw [if_pos hok]
    · rw [← hl]
      exact hall
    · rw [if_pos rfl]
      exact ⟨r', rfl, by rw [← hl]; exact hrates⟩
    · intro _
      exact e1.symm
  | false =>
    have hok : filtersOk false 0 (f0 :: l) = true := by
      unfold filtersOk
      rw [List.all_eq_true]
      intro x hx
      rw [← hl] at hx
      simp [hall x hx]
    refine ⟨⟨false, f0 :: l, some (.many ((f0 :: l).filterMap FItem.rate?))⟩, ?_,
      ⟨⟨by simp, ?_⟩, ?_⟩, rfl, hl.symm, by simp⟩
    · rw [hl]
      unfold setFilters
      dsimp only
      rw [hb, if_neg (by simp), mapM_rates (f0 :: l) (by rw [← hl]; exact hall)]
      dsimp only
      rw [if_pos hok]
    · rw [← hl]
      exact hall
    · rw [if_neg (by simp)]

theorem add_ok (fs : List FB) : ∀ (st : FB), Kept st →
    (∀ f ∈ fs, Kept f ∧ f.same = st.same ∧ (st.same = true → f.rate = st.rate)) →
    ∃ t, addBanks st fs = .ok t ∧ Kept t ∧ t.same = st.same ∧
      t.filters = st.filters ++ (fs.map fun f => f.filters).flatten ∧
      (st.same = true → t.rate = st.rate) := by
  induction fs with
  | nil => exact fun st hs _ => ⟨st, rfl, hs, rfl, by simp, fun _ => rfl⟩
  | cons f fs ih =>
    intro st hs h
    obtain ⟨h1, h2, h3⟩ := h f (by simp)
    obtain ⟨t, e1, e2, e3, e4, e5⟩ := set_ok st f hs h1 h2 h3
    obtain ⟨u, u1, u2, u3, u4, u5⟩ := ih t e2 fun g hg => by
      obtain ⟨g1, g2, g3⟩ := h g (by simp [hg])
      exact ⟨g1, by rw [g2, e3], fun hb => by rw [g3 (e3 ▸ hb), e5 (e3 ▸ hb)]⟩
    refine ⟨u, ?_, u2, by rw [u3, e3], ?_, fun hb => by rw [u5 (by rw [e3]; exact hb), e5 hb]⟩
    · rw [addBanks, e1]
      exact u1
    · rw [u4, e4]
      simp

theorem kept_rate (f : FB) (h : Kept f) : ∃ r, f.rate = some r := by
  have := h.rate
  split_ifs at this with hb
  · obtain ⟨r, e, -⟩ := this
    exact ⟨_, e⟩
  · exact ⟨_, this⟩

theorem check_none (f0 f : FB) (h0 : Kept f0) (h : Kept f) :
    (f.same = f0.same ∧ f.rate = f0.rate → checkBank f0 f = none) ∧
    (¬ (f.same = f0.same ∧ f.rate = f0.rate) → checkBank f0 f = some .assertionError) := by
  obtain ⟨r0, e0⟩ := kept_rate f0 h0
  obtain ⟨r, e⟩ := kept_rate f h
  unfold checkBank
  constructor
  · rintro ⟨h1, h2⟩
    rw [if_neg (not_not.2 h1), e, e0]
    dsimp only
    rw [e, e0] at h2
    injection h2 with h2
    rw [if_pos h2]
  · intro hn
    by_cases h1 : f.same = f0.same
    · rw [if_neg (not_not.2 h1), e, e0]
      dsimp only
      rw [if_neg]
      intro h2
      exact hn ⟨h1, by rw [e, e0, h2]⟩
    · rw [if_pos h1]

/-- Two or more filter banks whose flags and sampling rates are those of the first one are joined to
a bank with all filters in order and the right book-keeping; all others raise AssertionError. -/
theorem C126_filterbanks (f0 f1 : FB) (fs : List FB) (h : ∀ f ∈ f0 :: f1 :: fs, Kept f) :
    ((∀ f ∈ f1 :: fs, f.same = f0.same ∧ f.rate = f0.rate) →
      ∃ t, appendFilterbanks (f0 :: f1 :: fs) = .ok t ∧ Kept t ∧ t.same = f0.same ∧
        t.filters = ((f0 :: f1 :: fs).map fun f => f.filters).flatten) ∧
    (¬ (∀ f ∈ f1 :: fs, f.same = f0.same ∧ f.rate = f0.rate) →
      appendFilterbanks (f0 :: f1 :: fs) = .error .assertionError) := by
  have h0 := h f0 (by simp)
  unfold appendFilterbanks
  dsimp only
  constructor
  · intro hg
    have hn : (f0 :: f1 :: fs).findSome? (checkBank f0) = none := by
      rw [List.findSome?_eq_none_iff]
      intro f hf
      rcases List.mem_cons.1 hf with rfl | hf'
      · exact (check_none _ _ h0 h0).1 ⟨rfl, rfl⟩
      · exact (check_none _ _ h0 (h f hf)).1 (hg f hf')
    rw [hn]
    dsimp only
    obtain ⟨t, t1, t2, t3, t4, -⟩ := add_ok (f1 :: fs) f0 h0 fun f hf =>
      ⟨h f (by simp [List.mem_cons.1 hf]), (hg f hf).1, fun _ => (hg f hf).2⟩
    exact ⟨t, t1, t2, t3, by rw [t4]; simp⟩
  · intro hg
    push Not at hg
    obtain ⟨f, hf, hbad⟩ := hg
    have hs : ((f0 :: f1 :: fs).findSome? (checkBank f0)).isSome = true := by
      rw [List.findSome?_isSome_iff]
      refine ⟨f, by simp [List.mem_cons.1 hf], ?_⟩
      rw [(check_none _ _ h0 (h f (by simp [List.mem_cons.1 hf]))).2 (fun hh => hbad hh.1 hh.2)]
      rfl
    obtain ⟨e, he⟩ := Option.isSome_iff_exists.1 hs
    rw [he]
    dsimp only
    obtain ⟨g, hg, hge⟩ := List.exists_of_findSome?_eq_some he
    by_cases hgg : g.same = f0.same ∧ g.rate = f0.rate
    · rw [(check_none _ _ h0 (h g hg)).1 hgg] at hge
      cases hge
    · rw [(check_none _ _ h0 (h g hg)).2 hgg] at hge
      injection hge with hge
      rw [hge]

/-- Multirate banks are compared by their whole lists of sampling rates: a bank with the rates 48000
and 44100 and a bank with the rate 48000 cannot be joined, although a multirate bank may hold these
filters. -/
theorem C126_multirate_wrong :
    let a : FB := ⟨false, [.filter 0 48000, .filter 1 44100], some (.many [48000, 44100])⟩
    let b : FB := ⟨false, [.filter 2 48000], some (.many [48000])⟩
    Kept a ∧ Kept b ∧ appendFilterbanks [a, b] = .error .assertionError ∧
      (setFilters ⟨false, [], none⟩ (a.filters ++ b.filters)).2 = none := by
  refine ⟨⟨⟨by simp, by simp [FItem.isFilter]⟩, by simp [FItem.rate?]⟩,
    ⟨⟨by simp, by simp [FItem.isFilter]⟩, by simp [FItem.rate?]⟩, by decide, by decide⟩

/-- The hypotheses of the theorem about filter banks are met. -/
example : Kept ⟨true, [.filter 0 48000, .filter 1 48000], some (.one 48000)⟩ :=
  ⟨⟨by simp, by simp [FItem.isFilter]⟩, by simp [FItem.rate?]⟩

open Classical in
/-- There are interpolators that return the given values. -/
example : ∃ sp, Interpolates sp := by
  refine ⟨fun _ f d x => if h : ∃ k < f.length, f.getD k 0 = x then d h.choose else 0, ?_⟩
  intro sch f d ha k hk
  have h : ∃ j < f.length, f.getD j 0 = f.getD k 0 := ⟨k, hk, rfl⟩
  dsimp only
  rw [dif_pos h]
  obtain ⟨h1, h2⟩ := h.choose_spec
  congr 1
  by_contra hne
  rcases Nat.lt_or_gt_of_ne hne with h3 | h3
  · exact absurd h2 (ha _ _ h3 hk).ne
  · exact absurd h2.symm (ha _ _ h3 h1).ne

end Verif.Props.C126
