import Verif.Model.SpectrumObject
import Verif.Lemmas.Spectrum
import Mathlib.Tactic.Linarith
import Mathlib.Tactic.NormNum
import Mathlib.Tactic.IntervalCases

/-!
# C146: a spectrum keeps data, grid, coherence and parameters together
-/

namespace Verif.SpecObj

open Spectrum SpecConv Verif.Append Complex

/-- Grid and data fit: frequencies are not negative and ascend, there is one row of data for each of
them and at least as many rows as channels, magnitudes are not negative. -/
structure Aligned (o : Obj) : Prop where
  nonneg : ∀ x ∈ o.spec.freqs, 0 ≤ x
  asc : ∀ i < o.spec.freqs.length - 1, o.spec.freqs.getD i 0 < o.spec.freqs.getD (i + 1) 0
  rows : o.spec.data.rows = o.spec.freqs.length
  tall : o.spec.data.cols ≤ o.spec.data.rows
  mag : o.spec.isMagnitude = true → ∀ r < o.spec.data.rows, ∀ c < o.spec.data.cols,
    0 ≤ (o.spec.data.val r c).re

theorem upright_tall {D : Type} (A : Mat D) : (upright A).cols ≤ (upright A).rows := by
  unfold upright
  split_ifs with h
  · exact h.le
  · omega

theorem upright_self {D : Type} (A : Mat D) (h : A.cols ≤ A.rows) : upright A = A := by
  unfold upright
  rw [if_neg (by omega)]

theorem setData_ok (o : Obj) (A : Mat ℂ) (m : Bool) (o' : Obj) (h : setData o A m = (o', none)) :
    (upright A).rows = o.spec.freqs.length ∧
    (m = true → ∀ r < (upright A).rows, ∀ c < (upright A).cols, 0 ≤ ((upright A).val r c).re) ∧
    o' = ⟨{ o.spec with data := upright A, isMagnitude := m }, o.coherence⟩ := by
  unfold setData at h
  by_cases h1 : (upright A).rows ≠ o.spec.freqs.length
  · rw [if_pos h1] at h
    cases (Prod.ext_iff.mp h).2
  · rw [if_neg h1] at h
    by_cases h2 : m = true ∧ ¬ ∀ r < (upright A).rows, ∀ c < (upright A).cols,
        0 ≤ ((upright A).val r c).re
    · rw [if_pos h2] at h
      cases (Prod.ext_iff.mp h).2
    · rw [if_neg h2] at h
      refine ⟨not_not.mp h1, fun hm => ?_, ((Prod.ext_iff.mp h).1).symm⟩
      by_contra hc
      exact h2 ⟨hm, hc⟩

theorem setData_aligned (o : Obj) (A : Mat ℂ) (m : Bool) (o' : Obj)
    (hn : ∀ x ∈ o.spec.freqs, 0 ≤ x)
    (ha : ∀ i < o.spec.freqs.length - 1, o.spec.freqs.getD i 0 < o.spec.freqs.getD (i + 1) 0)
    (h : setData o A m = (o', none)) : Aligned o' := by
  obtain ⟨h1, h2, h3⟩ := setData_ok o A m o' h
  subst h3
  exact ⟨hn, ha, h1, upright_tall A, h2⟩

theorem setFreqs_ok (o : Obj) (f : List ℝ) (o' : Obj) (h : setFreqs o f = (o', none)) :
    (∀ x ∈ f, 0 ≤ x) ∧ (∀ i < f.length - 1, f.getD i 0 < f.getD (i + 1) 0) ∧
    o' = ⟨{ o.spec with freqs := f }, o.coherence⟩ := by
  unfold setFreqs at h
  by_cases h1 : ¬ ((∀ x ∈ f, 0 ≤ x) ∧ ∀ i < f.length - 1, f.getD i 0 < f.getD (i + 1) 0)
  · rw [if_pos h1] at h
    cases (Prod.ext_iff.mp h).2
  · rw [if_neg h1] at h
    have h2 := not_not.mp h1
    exact ⟨h2.1, h2.2, ((Prod.ext_iff.mp h).1).symm⟩

theorem create_ok (f : List ℝ) (A : Mat ℂ) (m : Bool) (o : Obj) (h : create f A m = .ok o) :
    Aligned o ∧ o = ⟨⟨f, upright A, m, .power, .linear, .zeroPad⟩, none⟩ := by
  unfold create construct at h
  by_cases h1 : ¬ ((∀ x ∈ f, 0 ≤ x) ∧ ∀ i < f.length - 1, f.getD i 0 < f.getD (i + 1) 0)
  · rw [if_pos h1] at h
    cases h
  rw [if_neg h1] at h
  by_cases h2 : (upright A).rows ≠ f.length
  · rw [if_pos h2] at h
    cases h
  rw [if_neg h2] at h
  by_cases h3 : m = true ∧ ¬ ∀ r < (upright A).rows, ∀ c < (upright A).cols,
      0 ≤ ((upright A).val r c).re
  · rw [if_pos h3] at h
    cases h
  rw [if_neg h3] at h
  have h4 : o = ⟨⟨f, upright A, m, .power, .linear, .zeroPad⟩, none⟩ := by
    injection h with h
    exact h.symm
  subst h4
  have h5 := not_not.mp h1
  refine ⟨⟨h5.1, h5.2, not_not.mp h2, upright_tall A, fun hm => ?_⟩, rfl⟩
  by_contra hc
  exact h3 ⟨hm, hc⟩

theorem create_of (f : List ℝ) (A : Mat ℂ) (m : Bool) (h1 : ∀ x ∈ f, 0 ≤ x)
    (h2 : ∀ i < f.length - 1, f.getD i 0 < f.getD (i + 1) 0) (h3 : (upright A).rows = f.length)
    (h4 : m = true → ∀ r < (upright A).rows, ∀ c < (upright A).cols,
      0 ≤ ((upright A).val r c).re) :
    create f A m = .ok ⟨⟨f, upright A, m, .power, .linear, .zeroPad⟩, none⟩ := by
  unfold create construct
  rw [if_neg (not_not.mpr ⟨h1, h2⟩), if_neg (not_not.mpr h3), if_neg (fun h => h.2 (h4 h.1))]

/-- A vector of frequencies is accepted exactly if it has no negative entry and ascends. -/
theorem setFreqs_of (o : Obj) (f : List ℝ) (h1 : ∀ x ∈ f, 0 ≤ x)
    (h2 : ∀ i < f.length - 1, f.getD i 0 < f.getD (i + 1) 0) :
    setFreqs o f = (⟨{ o.spec with freqs := f }, o.coherence⟩, none) := by
  unfold setFreqs
  rw [if_neg (not_not.mpr ⟨h1, h2⟩)]

theorem resample_ok (sp : Spline) (o : Obj) (f : List ℝ) (o' : Obj)
    (h : resample sp o f = (o', none)) :
    ∃ A, interpolateAll sp
        { o.spec with domain := if o.spec.isMagnitude then .power else .magnitudePhase } f
        (if o.spec.isMagnitude then .magnitude else .complex) = .ok A ∧
      (∀ x ∈ f, 0 ≤ x) ∧ (∀ i < f.length - 1, f.getD i 0 < f.getD (i + 1) 0) ∧
      (upright A).rows = f.length ∧
      (o.spec.isMagnitude = true → ∀ r < (upright A).rows, ∀ c < (upright A).cols,
        0 ≤ ((upright A).val r c).re) ∧
      o' = ⟨{ o.spec with
        freqs := f
        data := upright A
        domain := if o.spec.isMagnitude then .power else .magnitudePhase }, o.coherence⟩ := by
  have hs : setInterpolator o (if o.spec.isMagnitude then .power else .magnitudePhase)
      o.spec.scheme o.spec.edges = (⟨{ o.spec with
        domain := if o.spec.isMagnitude then .power else .magnitudePhase }, o.coherence⟩, none) := by
    unfold setInterpolator
    cases hm : o.spec.isMagnitude <;> simp
  unfold resample at h
  dsimp only at h
  rw [hs] at h
  dsimp only at h
  cases hA : interpolateAll sp
      { o.spec with domain := if o.spec.isMagnitude then .power else .magnitudePhase } f
      (if o.spec.isMagnitude then .magnitude else .complex) with
  | error e =>
    rw [hA] at h
    cases (Prod.ext_iff.mp h).2
  | ok A =>
    rw [hA] at h
    dsimp only at h
    cases hf : setFreqs ⟨{ o.spec with
        domain := if o.spec.isMagnitude then .power else .magnitudePhase }, o.coherence⟩ f with
    | mk o2 e =>
      rw [hf] at h
      cases e with
      | some e => cases (Prod.ext_iff.mp h).2
      | none =>
        dsimp only at h
        obtain ⟨g1, g2, g3⟩ := setFreqs_ok _ _ _ hf
        obtain ⟨k1, k2, k3⟩ := setData_ok _ _ _ _ h
        subst g3
        exact ⟨A, rfl, g1, g2, k1, k2, k3⟩

/-- One successful call keeps grid and data together. -/
theorem call_aligned (sp : Spline) (o o' : Obj) (x : Call) (hx : ∀ f, x ≠ .freqs f)
    (ho : Aligned o) (h : call sp o x = (o', none)) : Aligned o' := by
  cases x with
  | freqs f => exact absurd rfl (hx f)
  | data A m => exact setData_aligned o A m o' ho.nonneg ho.asc h
  | interpolator d s e =>
    simp only [call, setInterpolator] at h
    by_cases hc : (d = .complex ∨ d = .magnitudePhase) ∧ o.spec.isMagnitude = true
    · rw [if_pos hc] at h
      cases (Prod.ext_iff.mp h).2
    · rw [if_neg hc] at h
      have := (Prod.ext_iff.mp h).1
      subst this
      exact ⟨ho.nonneg, ho.asc, ho.rows, ho.tall, ho.mag⟩
  | coherence G z =>
    simp only [call, setCoherence] at h
    by_cases hc : ¬ (G.rows = o.spec.data.rows ∧ G.cols = o.spec.data.cols)
    · rw [if_pos hc] at h
      cases (Prod.ext_iff.mp h).2
    · rw [if_neg hc] at h
      cases z with
      | true => cases (Prod.ext_iff.mp h).2
      | false =>
        have := (Prod.ext_iff.mp h).1
        subst this
        exact ⟨ho.nonneg, ho.asc, ho.rows, ho.tall, ho.mag⟩
  | swap order =>
    simp only [call, swapChannels] at h
    by_cases h1 : order.length ≠ o.spec.data.cols
    · rw [if_pos h1] at h
      cases (Prod.ext_iff.mp h).2
    rw [if_neg h1] at h
    by_cases h2 : ¬ ∀ j ∈ order, 0 ≤ j ∧ j < (o.spec.data.cols : ℤ)
    · rw [if_pos h2] at h
      cases (Prod.ext_iff.mp h).2
    rw [if_neg h2] at h
    by_cases h3 : ¬ order.Nodup
    · rw [if_pos h3] at h
      cases (Prod.ext_iff.mp h).2
    rw [if_neg h3] at h
    exact setData_aligned o _ _ o' ho.nonneg ho.asc h
  | remove ch =>
    simp only [call, removeChannel] at h
    generalize (if ch = -1 then (o.spec.data.cols : ℤ) - 1 else ch) = k at h
    by_cases h1 : o.spec.data.cols ≤ 1
    · rw [if_pos h1] at h
      cases (Prod.ext_iff.mp h).2
    rw [if_neg h1] at h
    by_cases h2 : (o.spec.data.cols : ℤ) - 1 < k
    · rw [if_pos h2] at h
      cases (Prod.ext_iff.mp h).2
    rw [if_neg h2] at h
    by_cases h3 : k < -(o.spec.data.cols : ℤ)
    · rw [if_pos h3] at h
      cases (Prod.ext_iff.mp h).2
    rw [if_neg h3] at h
    exact setData_aligned o _ _ o' ho.nonneg ho.asc h
  | trim lo hi inc =>
    simp only [call, trimTo] at h
    cases hs : toSlice o.spec.freqs lo hi inc with
    | error e =>
      rw [hs] at h
      cases (Prod.ext_iff.mp h).2
    | ok p =>
      obtain ⟨i, j⟩ := p
      rw [hs] at h
      dsimp only at h
      cases hf : setFreqs o ((o.spec.freqs.drop i).take (j - i)) with
      | mk o1 e =>
        rw [hf] at h
        cases e with
        | some e => cases (Prod.ext_iff.mp h).2
        | none =>
          dsimp only at h
          obtain ⟨g1, g2, g3⟩ := setFreqs_ok _ _ _ hf
          subst g3
          exact setData_aligned _ _ _ o' g1 g2 h
  | resample f =>
    obtain ⟨A, -, g1, g2, g3, g4, g5⟩ := resample_ok sp o f o' h
    subst g5
    exact ⟨g1, g2, g3, upright_tall A, g4⟩
  | smooth w =>
    simp only [call, octaveSmoothing] at h
    cases hs : spacing o.spec.freqs with
    | other =>
      rw [hs] at h
      cases (Prod.ext_iff.mp h).2
    | linear =>
      rw [hs] at h
      dsimp only at h
      by_cases hm : o.spec.isMagnitude = true
      · rw [if_pos hm] at h
        exact setData_aligned o _ _ o' ho.nonneg ho.asc h
      · rw [if_neg hm] at h
        exact setData_aligned o _ _ o' ho.nonneg ho.asc h
    | logarithmic =>
      rw [hs] at h
      dsimp only at h
      by_cases hm : o.spec.isMagnitude = true
      · rw [if_pos hm] at h
        exact setData_aligned o _ _ o' ho.nonneg ho.asc h
      · rw [if_neg hm] at h
        exact setData_aligned o _ _ o' ho.nonneg ho.asc h

/-- A spectrum that was constructed and went through any number of successful calls (other than
setting the frequency vector itself) has one row of data for each frequency, not more channels than
frequencies, ascending frequencies and no negative magnitudes. -/
theorem C146_aligned_partial (sp : Spline) (f : List ℝ) (A : Mat ℂ) (m : Bool) (o o' : Obj)
    (xs : List Call) (hx : ∀ x ∈ xs, ∀ g, x ≠ .freqs g) (h : create f A m = .ok o)
    (h' : calls sp o xs = (o', none)) : Aligned o' := by
  have ho := (create_ok f A m o h).1
  clear h
  induction xs generalizing o with
  | nil =>
    have h1 : o = o' := (Prod.ext_iff.mp h').1
    exact h1 ▸ ho
  | cons x xs ih =>
    unfold calls at h'
    cases hc : call sp o x with
    | mk o1 e =>
      rw [hc] at h'
      cases e with
      | some e => cases (Prod.ext_iff.mp h').2
      | none =>
        exact ih o1 (fun y hy => hx y (List.mem_cons_of_mem x hy)) h'
          (call_aligned sp o o1 x (hx x (List.mem_cons_self ..)) ho hc)

/-- The setter of the frequency vector does not look at the data: every ascending vector of another
length is accepted and leaves grid and data of different lengths. -/
theorem C146_freqs_wrong (o : Obj) (ho : Aligned o) (f : List ℝ) (h1 : ∀ x ∈ f, 0 ≤ x)
    (h2 : ∀ i < f.length - 1, f.getD i 0 < f.getD (i + 1) 0)
    (h3 : f.length ≠ o.spec.freqs.length) :
    ∃ o', setFreqs o f = (o', none) ∧ o'.spec.data = o.spec.data ∧ ¬ Aligned o' := by
  refine ⟨_, setFreqs_of o f h1 h2, rfl, fun ha => h3 ?_⟩
  rw [← ho.rows]
  exact ha.rows.symm

/-- Coherence is accepted exactly if it is real and has the shape of the data; otherwise the spectrum
stays as it is. -/
theorem C146_coherence (o : Obj) (G : Mat ℝ) (z : Bool) :
    ((G.rows = o.spec.data.rows ∧ G.cols = o.spec.data.cols) ∧ z = false →
      setCoherence o G z = (⟨o.spec, some G⟩, none)) ∧
    (¬ ((G.rows = o.spec.data.rows ∧ G.cols = o.spec.data.cols) ∧ z = false) →
      setCoherence o G z = (o, some .assertionError)) := by
  unfold setCoherence
  constructor
  · rintro ⟨h1, h2⟩
    rw [if_neg (not_not.mpr h1), h2]
    simp
  · intro h
    by_cases h1 : ¬ (G.rows = o.spec.data.rows ∧ G.cols = o.spec.data.cols)
    · rw [if_pos h1]
    · rw [if_neg h1]
      cases z with
      | true => simp
      | false => exact absurd ⟨not_not.mp h1, rfl⟩ h

/-- What `_create_copy_with_new_data` returns for data with as many rows as there are frequencies and
not more columns. -/
theorem createCopy_eq (o : Obj) (ho : Aligned o) (A : Mat ℂ) (m : Bool)
    (hr : A.rows = o.spec.freqs.length) (hc : A.cols ≤ A.rows)
    (hm : m = true → ∀ r < A.rows, ∀ c < A.cols, 0 ≤ (A.val r c).re) :
    createCopy o A m =
      if (o.spec.domain = .complex ∨ o.spec.domain = .magnitudePhase) ∧ m = true then
        .error .assertionError
      else match o.coherence with
        | none => .ok ⟨{ o.spec with data := A, isMagnitude := m }, none⟩
        | some G =>
          if G.rows = A.rows ∧ G.cols = A.cols then
            .ok ⟨{ o.spec with data := A, isMagnitude := m }, some G⟩
          else .error .assertionError := by
  have hu := upright_self A hc
  have h1 := create_of o.spec.freqs A m ho.nonneg ho.asc (by rw [hu]; exact hr)
    (by rw [hu]; exact hm)
  rw [hu] at h1
  unfold createCopy
  rw [h1]
  dsimp only
  unfold setInterpolator
  by_cases hd : (o.spec.domain = .complex ∨ o.spec.domain = .magnitudePhase) ∧ m = true
  · rw [if_pos hd, if_pos hd]
  · rw [if_neg hd, if_neg hd]
    dsimp only
    cases o.coherence with
    | none => rfl
    | some G =>
      dsimp only [setCoherence]
      by_cases hG : G.rows = A.rows ∧ G.cols = A.cols
      · rw [if_neg (not_not.mpr hG), if_pos hG]
        simp
      · rw [if_pos hG, if_neg hG]

theorem colIndex_lt (C : ℕ) (j : ℤ) (h : -(C : ℤ) ≤ j ∧ j < C) : colIndex C j < C := by
  unfold colIndex
  split_ifs <;> omega

/-- Without coherence `get_channels` returns the chosen channels in the given order (negative numbers
count from the last channel) on the same frequencies with the parameters of the spectrum, as long as
no more channels are asked for than there are frequencies. -/
theorem C146_get_channels_partial (o : Obj) (ho : Aligned o) (hg : o.coherence = none)
    (hd : ¬ ((o.spec.domain = .complex ∨ o.spec.domain = .magnitudePhase) ∧
      o.spec.isMagnitude = true))
    (idx : List ℤ) (h0 : idx ≠ [])
    (hi : ∀ j ∈ idx, -(o.spec.data.cols : ℤ) ≤ j ∧ j < o.spec.data.cols)
    (hn : idx.length ≤ o.spec.freqs.length) :
    ∃ o', getChannels o idx = .ok o' ∧ o'.spec.freqs = o.spec.freqs ∧
      o'.spec.data.rows = o.spec.data.rows ∧ o'.spec.data.cols = idx.length ∧
      o'.spec.isMagnitude = o.spec.isMagnitude ∧ o'.spec.domain = o.spec.domain ∧
      o'.spec.scheme = o.spec.scheme ∧ o'.spec.edges = o.spec.edges ∧ o'.coherence = none ∧
      ∀ r, ∀ c < idx.length, ∀ k < o.spec.data.cols,
        (idx.getD c 0 = k ∨ idx.getD c 0 = (k : ℤ) - o.spec.data.cols) →
        o'.spec.data.val r c = o.spec.data.val r k := by
  have hget : ∀ c < idx.length, idx.getD c 0 ∈ idx := fun c hc => by
    rw [List.getD_eq_getElem _ _ hc]
    exact List.getElem_mem hc
  have hval : ∀ c < idx.length,
      (idx.map (colIndex o.spec.data.cols)).getD c 0 = colIndex o.spec.data.cols (idx.getD c 0) := by
    intro c hc
    rw [List.getD_eq_getElem _ _ (by simpa using hc), List.getElem_map,
      List.getD_eq_getElem _ _ hc]
  have hcop := createCopy_eq o ho
    (o.spec.data.selectCols (idx.map (colIndex o.spec.data.cols))) o.spec.isMagnitude ho.rows
    (by simp only [Mat.selectCols, List.length_map]; rw [ho.rows]; exact hn)
    (by
      intro hm r hr c hc
      simp only [Mat.selectCols, List.length_map] at hr hc ⊢
      rw [hval c hc]
      exact ho.mag hm r hr _ (colIndex_lt _ _ (hi _ (hget c hc))))
  rw [if_neg hd, hg] at hcop
  refine ⟨⟨{ o.spec with
    data := o.spec.data.selectCols (idx.map (colIndex o.spec.data.cols)) }, none⟩, ?_, rfl, rfl, ?_,
    rfl, rfl, rfl, rfl, rfl, ?_⟩
  · unfold getChannels
    dsimp only
    rw [if_neg h0, if_neg (not_not.mpr hi), hcop]
  · simp only [Mat.selectCols, List.length_map]
  · intro r c hc k hk hck
    simp only [Mat.selectCols]
    rw [hval c hc]
    congr 1
    unfold colIndex
    have := hi _ (hget c hc)
    split_ifs <;> omega

/-- More channels than frequencies (repeated channels count) are refused, since the data would be
taken for transposed. -/
theorem C146_get_channels_many (o : Obj) (ho : Aligned o) (idx : List ℤ)
    (hi : ∀ j ∈ idx, -(o.spec.data.cols : ℤ) ≤ j ∧ j < o.spec.data.cols)
    (hn : o.spec.freqs.length < idx.length) :
    getChannels o idx = .error .assertionError := by
  have h0 : idx ≠ [] := by
    rintro rfl
    simp at hn
  unfold getChannels
  dsimp only
  rw [if_neg h0, if_neg (not_not.mpr hi)]
  unfold createCopy create construct
  rw [if_neg (not_not.mpr ⟨ho.nonneg, ho.asc⟩)]
  have hu : (upright (o.spec.data.selectCols (idx.map (colIndex o.spec.data.cols)))).rows ≠
      o.spec.freqs.length := by
    unfold upright
    rw [if_pos (by simp only [Mat.selectCols, List.length_map]; rw [ho.rows]; exact hn)]
    simp only [Mat.T, Mat.selectCols, List.length_map]
    omega
  rw [if_pos hu]

/-- With coherence, `get_channels` works only for as many channels as there are, and the coherence of
the result is the one of the spectrum: not in the order of the chosen channels. -/
theorem C146_get_channels_coherence_wrong (o : Obj) (ho : Aligned o) (G : Mat ℝ)
    (hg : o.coherence = some G)
    (hs : G.rows = o.spec.data.rows ∧ G.cols = o.spec.data.cols) (idx : List ℤ) (o' : Obj)
    (h : getChannels o idx = .ok o') :
    idx.length = o.spec.data.cols ∧ o'.coherence = some G := by
  unfold getChannels at h
  dsimp only at h
  by_cases h0 : idx = []
  · rw [if_pos h0] at h
    cases h
  rw [if_neg h0] at h
  by_cases hi : ¬ ∀ j ∈ idx, -(o.spec.data.cols : ℤ) ≤ j ∧ j < o.spec.data.cols
  · rw [if_pos hi] at h
    cases h
  rw [if_neg hi] at h
  have hi' := not_not.mp hi
  by_cases hn : idx.length ≤ o.spec.freqs.length
  · have hval : ∀ c < idx.length,
        (idx.map (colIndex o.spec.data.cols)).getD c 0 =
          colIndex o.spec.data.cols (idx.getD c 0) := by
      intro c hc
      rw [List.getD_eq_getElem _ _ (by simpa using hc), List.getElem_map,
        List.getD_eq_getElem _ _ hc]
    have hcop := createCopy_eq o ho
      (o.spec.data.selectCols (idx.map (colIndex o.spec.data.cols))) o.spec.isMagnitude ho.rows
      (by simp only [Mat.selectCols, List.length_map]; rw [ho.rows]; exact hn)
      (by
        intro hm r hr c hc
        simp only [Mat.selectCols, List.length_map] at hr hc ⊢
        rw [hval c hc]
        refine ho.mag hm r hr _ (colIndex_lt _ _ (hi' _ ?_))
        rw [List.getD_eq_getElem _ _ hc]
        exact List.getElem_mem hc)
    rw [hcop, hg] at h
    by_cases hd : (o.spec.domain = .complex ∨ o.spec.domain = .magnitudePhase) ∧
        o.spec.isMagnitude = true
    · rw [if_pos hd] at h
      cases h
    rw [if_neg hd] at h
    dsimp only at h
    by_cases hG : G.rows = (o.spec.data.selectCols (idx.map (colIndex o.spec.data.cols))).rows ∧
        G.cols = (o.spec.data.selectCols (idx.map (colIndex o.spec.data.cols))).cols
    · rw [if_pos hG] at h
      have h2 := hG.2
      simp only [Mat.selectCols, List.length_map] at h2
      injection h with h
      exact ⟨by rw [← h2, hs.2], by rw [← h]⟩
    · rw [if_neg hG] at h
      cases h
  · have h2 := C146_get_channels_many o ho idx hi' (by omega)
    unfold getChannels at h2
    dsimp only at h2
    rw [if_neg h0, if_neg hi, h] at h2
    cases h2

/-- `swap_channels` moves the channels and leaves the coherence: channel `c` of the result is channel
`order[c]` of the spectrum, but its coherence is the one of channel `c`. -/
theorem C146_swap_wrong (o : Obj) (ho : Aligned o) (order : List ℤ)
    (h1 : order.length = o.spec.data.cols)
    (h2 : ∀ j ∈ order, 0 ≤ j ∧ j < (o.spec.data.cols : ℤ)) (h3 : order.Nodup) :
    ∃ o', swapChannels o order = (o', none) ∧ o'.coherence = o.coherence ∧ Aligned o' ∧
      ∀ r, ∀ c < o.spec.data.cols, ∀ k : ℕ, order.getD c 0 = k →
        o'.spec.data.val r c = o.spec.data.val r k := by
  have hval : ∀ c < order.length, (order.map Int.toNat).getD c 0 = (order.getD c 0).toNat := by
    intro c hc
    rw [List.getD_eq_getElem _ _ (by simpa using hc), List.getElem_map,
      List.getD_eq_getElem _ _ hc]
  have htall : (o.spec.data.selectCols (order.map Int.toNat)).cols ≤
      (o.spec.data.selectCols (order.map Int.toNat)).rows := by
    simp only [Mat.selectCols, List.length_map]
    rw [h1]
    exact ho.tall
  have hu := upright_self _ htall
  have hset : setData o (o.spec.data.selectCols (order.map Int.toNat)) o.spec.isMagnitude =
      (⟨{ o.spec with data := o.spec.data.selectCols (order.map Int.toNat) }, o.coherence⟩,
        none) := by
    have hrr : (o.spec.data.selectCols (order.map Int.toNat)).rows = o.spec.freqs.length := ho.rows
    unfold setData
    rw [hu, if_neg (not_not.mpr hrr), if_neg]
    rintro ⟨hm, hneg⟩
    apply hneg
    intro r hr c hc
    simp only [Mat.selectCols, List.length_map] at hr hc ⊢
    rw [hval c hc]
    have hj := h2 (order.getD c 0) (by
      rw [List.getD_eq_getElem _ _ hc]
      exact List.getElem_mem hc)
    exact ho.mag hm r hr _ (by omega)
  have hsw : swapChannels o order =
      (⟨{ o.spec with data := o.spec.data.selectCols (order.map Int.toNat) }, o.coherence⟩,
        none) := by
    unfold swapChannels
    dsimp only
    rw [if_neg (not_not.mpr h1), if_neg (not_not.mpr h2), if_neg (not_not.mpr h3), hset]
  refine ⟨_, hsw, rfl, setData_aligned o _ _ _ ho.nonneg ho.asc hset, ?_⟩
  intro r c hc k hk
  simp only [Mat.selectCols]
  rw [hval c (by omega), hk]
  simp

/-- `remove_channel` leaves the coherence: if there is one of the shape of the data, afterwards it has
another shape. -/
theorem C146_remove_wrong (o o' : Obj) (ho : Aligned o) (G : Mat ℝ) (hg : o.coherence = some G)
    (hs : G.cols = o.spec.data.cols) (ch : ℤ) (h : removeChannel o ch = (o', none)) :
    o'.coherence = some G ∧ G.cols = o'.spec.data.cols + 1 := by
  unfold removeChannel at h
  dsimp only at h
  generalize (if ch = -1 then (o.spec.data.cols : ℤ) - 1 else ch) = k at h
  by_cases h1 : o.spec.data.cols ≤ 1
  · rw [if_pos h1] at h
    cases (Prod.ext_iff.mp h).2
  rw [if_neg h1] at h
  by_cases h2 : (o.spec.data.cols : ℤ) - 1 < k
  · rw [if_pos h2] at h
    cases (Prod.ext_iff.mp h).2
  rw [if_neg h2] at h
  by_cases h3 : k < -(o.spec.data.cols : ℤ)
  · rw [if_pos h3] at h
    cases (Prod.ext_iff.mp h).2
  rw [if_neg h3] at h
  obtain ⟨-, -, g3⟩ := setData_ok _ _ _ _ h
  have ht := ho.tall
  have hu : upright (o.spec.data.deleteCol (colIndex o.spec.data.cols k)) =
      o.spec.data.deleteCol (colIndex o.spec.data.cols k) := by
    apply upright_self
    simp only [Mat.deleteCol]
    omega
  rw [hu] at g3
  subst g3
  refine ⟨hg, ?_⟩
  simp only [Mat.deleteCol]
  omega

/-- If the coherence does not have as many rows as there are frequencies, no channels can be taken and
channels cannot be summed. -/
theorem C146_stale_coherence (o : Obj) (G : Mat ℝ) (hg : o.coherence = some G)
    (hs : G.rows ≠ o.spec.freqs.length) :
    (∀ idx o', getChannels o idx ≠ .ok o') ∧ ∀ p o', sumChannels o p ≠ .ok o' := by
  have key : ∀ (A : Mat ℂ) (m : Bool) (o' : Obj), createCopy o A m ≠ .ok o' := by
    intro A m o' h
    unfold createCopy at h
    cases hc : create o.spec.freqs A m with
    | error e =>
      rw [hc] at h
      cases h
    | ok n =>
      rw [hc] at h
      dsimp only at h
      obtain ⟨hn, he⟩ := create_ok _ _ _ _ hc
      cases hi : setInterpolator n o.spec.domain o.spec.scheme o.spec.edges with
      | mk n1 e =>
        rw [hi] at h
        cases e with
        | some e => cases h
        | none =>
          have h1 : n1.spec.data.rows = o.spec.freqs.length := by
            unfold setInterpolator at hi
            by_cases hd : (o.spec.domain = .complex ∨ o.spec.domain = .magnitudePhase) ∧
                n.spec.isMagnitude = true
            · rw [if_pos hd] at hi
              cases (Prod.ext_iff.mp hi).2
            · rw [if_neg hd] at hi
              have h2 : _ = n1 := (Prod.ext_iff.mp hi).1
              rw [← h2]
              dsimp only
              rw [hn.rows, he]
          dsimp only at h
          rw [hg] at h
          dsimp only at h
          rw [(C146_coherence n1 G false).2 (fun hh => hs (hh.1.1.trans h1))] at h
          cases h
  constructor
  · intro idx o' h
    unfold getChannels at h
    dsimp only at h
    by_cases h0 : idx = []
    · rw [if_pos h0] at h
      cases h
    rw [if_neg h0] at h
    by_cases hi : ¬ ∀ j ∈ idx, -(o.spec.data.cols : ℤ) ≤ j ∧ j < o.spec.data.cols
    · rw [if_pos hi] at h
      cases h
    rw [if_neg hi] at h
    exact key _ _ _ h
  · intro p o' h
    unfold sumChannels at h
    cases p with
    | true => exact key _ _ _ h
    | false => exact key _ _ _ h

/-- After trimming or resampling to another number of frequencies the coherence has the old number of
rows, and then neither `get_channels` nor `sum_channels` ever returns. -/
theorem C146_grid_coherence_wrong (sp : Spline) (o o' : Obj) (ho : Aligned o) (G : Mat ℝ)
    (hg : o.coherence = some G) (hs : G.rows = o.spec.data.rows) (x : Call)
    (hx : (∃ lo hi inc, x = .trim lo hi inc) ∨ ∃ f, x = .resample f)
    (h : call sp o x = (o', none)) (hl : o'.spec.freqs.length ≠ o.spec.freqs.length) :
    (∀ idx t, getChannels o' idx ≠ .ok t) ∧ ∀ p t, sumChannels o' p ≠ .ok t := by
  have ho' : Aligned o' := by
    refine call_aligned sp o o' x ?_ ho h
    rintro f rfl
    rcases hx with ⟨_, _, _, hx⟩ | ⟨_, hx⟩ <;> cases hx
  have hG : o'.coherence = some G := by
    rcases hx with ⟨lo, hi, inc, rfl⟩ | ⟨f, rfl⟩
    · simp only [call, trimTo] at h
      cases hs : toSlice o.spec.freqs lo hi inc with
      | error e =>
        rw [hs] at h
        cases (Prod.ext_iff.mp h).2
      | ok p =>
        obtain ⟨i, j⟩ := p
        rw [hs] at h
        dsimp only at h
        cases hf : setFreqs o ((o.spec.freqs.drop i).take (j - i)) with
        | mk o1 e =>
          rw [hf] at h
          cases e with
          | some e => cases (Prod.ext_iff.mp h).2
          | none =>
            dsimp only at h
            obtain ⟨-, -, g3⟩ := setFreqs_ok _ _ _ hf
            obtain ⟨-, -, k3⟩ := setData_ok _ _ _ _ h
            rw [k3, g3]
            exact hg
    · obtain ⟨A, -, -, -, -, -, g5⟩ := resample_ok sp o f o' h
      rw [g5]
      exact hg
  exact C146_stale_coherence o' G hG (by rw [hs, ho.rows]; exact fun hh => hl hh.symm)

/-- `sum_channels` without coherence: the root of the sum of the powers (a magnitude), or the sum of
the values. -/
theorem C146_sum_partial (o : Obj) (ho : Aligned o) (hc : 1 ≤ o.spec.freqs.length)
    (hg : o.coherence = none)
    (hd : ¬ (o.spec.domain = .complex ∨ o.spec.domain = .magnitudePhase)) (p : Bool) :
    ∃ o', sumChannels o p = .ok o' ∧ o'.spec.freqs = o.spec.freqs ∧ o'.spec.data.cols = 1 ∧
      o'.spec.data.rows = o.spec.data.rows ∧ o'.spec.domain = o.spec.domain ∧
      o'.spec.scheme = o.spec.scheme ∧ o'.spec.edges = o.spec.edges ∧
      (p = true → o'.spec.isMagnitude = true ∧ ∀ r, ∃ x : ℝ, 0 ≤ x ∧
        o'.spec.data.val r 0 = x ∧
        x ^ 2 = ∑ c ∈ Finset.range o.spec.data.cols, ‖o.spec.data.val r c‖ ^ 2) ∧
      (p = false → o'.spec.isMagnitude = o.spec.isMagnitude ∧ ∀ r,
        o'.spec.data.val r 0 = ∑ c ∈ Finset.range o.spec.data.cols, o.spec.data.val r c) := by
  cases p with
  | true =>
    have h := createCopy_eq o ho ⟨o.spec.data.rows, 1, fun r _ =>
      ((Real.sqrt (∑ c ∈ Finset.range o.spec.data.cols, ‖o.spec.data.val r c‖ ^ 2) : ℝ) : ℂ)⟩ true
      ho.rows (by show 1 ≤ o.spec.data.rows; rw [ho.rows]; exact hc)
      (fun _ r _ c _ => by
        dsimp only
        rw [ofReal_re]
        exact Real.sqrt_nonneg _)
    rw [if_neg (fun hh => hd hh.1), hg] at h
    refine ⟨_, h, rfl, rfl, rfl, rfl, rfl, rfl, ?_, ?_⟩
    · intro _
      exact ⟨rfl, fun r => ⟨_, Real.sqrt_nonneg _, rfl,
        Real.sq_sqrt (Finset.sum_nonneg fun c _ => sq_nonneg _)⟩⟩
    · intro hh
      cases hh
  | false =>
    have h := createCopy_eq o ho ⟨o.spec.data.rows, 1, fun r _ =>
      ∑ c ∈ Finset.range o.spec.data.cols, o.spec.data.val r c⟩ o.spec.isMagnitude
      ho.rows (by show 1 ≤ o.spec.data.rows; rw [ho.rows]; exact hc)
      (fun hm r hr c _ => by
        dsimp only
        rw [Complex.re_sum]
        exact Finset.sum_nonneg fun c hc => ho.mag hm r hr c (Finset.mem_range.mp hc))
    rw [if_neg (fun hh => hd hh.1), hg] at h
    refine ⟨_, h, rfl, rfl, rfl, rfl, rfl, rfl, ?_, ?_⟩
    · intro hh
      cases hh
    · intro _
      exact ⟨rfl, fun r => rfl⟩

/-- A spectrum whose interpolation happens on complex values cannot be summed in power. -/
theorem C146_sum_domain_wrong (o : Obj) (ho : Aligned o) (hc : 1 ≤ o.spec.freqs.length)
    (hd : o.spec.domain = .complex ∨ o.spec.domain = .magnitudePhase) :
    sumChannels o true = .error .assertionError := by
  have h := createCopy_eq o ho ⟨o.spec.data.rows, 1, fun r _ =>
    ((Real.sqrt (∑ c ∈ Finset.range o.spec.data.cols, ‖o.spec.data.val r c‖ ^ 2) : ℝ) : ℂ)⟩ true
    ho.rows (by show 1 ≤ o.spec.data.rows; rw [ho.rows]; exact hc)
    (fun _ r _ c _ => by
      dsimp only
      rw [ofReal_re]
      exact Real.sqrt_nonneg _)
  rw [if_pos ⟨hd, rfl⟩] at h
  unfold sumChannels
  simp only [if_true]
  exact h

/-- A spectrum with the coherence of several channels cannot be summed at all. -/
theorem C146_sum_coherence_wrong (o : Obj) (ho : Aligned o) (h1 : 1 ≤ o.spec.freqs.length)
    (G : Mat ℝ) (hg : o.coherence = some G) (hc : G.cols ≠ 1) (p : Bool) :
    sumChannels o p = .error .assertionError := by
  have hne : ¬ (G.rows = o.spec.data.rows ∧ G.cols = 1) := fun hh => hc hh.2
  cases p with
  | true =>
    have h := createCopy_eq o ho ⟨o.spec.data.rows, 1, fun r _ =>
      ((Real.sqrt (∑ c ∈ Finset.range o.spec.data.cols, ‖o.spec.data.val r c‖ ^ 2) : ℝ) : ℂ)⟩ true
      ho.rows (by show 1 ≤ o.spec.data.rows; rw [ho.rows]; exact h1)
      (fun _ r _ c _ => by
        dsimp only
        rw [ofReal_re]
        exact Real.sqrt_nonneg _)
    rw [hg] at h
    dsimp only at h
    rw [if_neg hne, ite_self] at h
    exact h
  | false =>
    have h := createCopy_eq o ho ⟨o.spec.data.rows, 1, fun r _ =>
      ∑ c ∈ Finset.range o.spec.data.cols, o.spec.data.val r c⟩ o.spec.isMagnitude
      ho.rows (by show 1 ≤ o.spec.data.rows; rw [ho.rows]; exact h1)
      (fun hm r hr c _ => by
        dsimp only
        rw [Complex.re_sum]
        exact Finset.sum_nonneg fun c hc => ho.mag hm r hr c (Finset.mem_range.mp hc))
    rw [hg] at h
    dsimp only at h
    rw [if_neg hne, ite_self] at h
    exact h

/-- `resample` replaces the stored domain of interpolation, whatever it was, and keeps scheme and
edges. -/
theorem C146_resample_domain_wrong (sp : Spline) (o o' : Obj) (f : List ℝ)
    (h : resample sp o f = (o', none)) :
    o'.spec.freqs = f ∧ o'.spec.isMagnitude = o.spec.isMagnitude ∧
    o'.spec.scheme = o.spec.scheme ∧ o'.spec.edges = o.spec.edges ∧
    o'.spec.domain = if o.spec.isMagnitude then .power else .magnitudePhase := by
  obtain ⟨A, -, -, -, -, -, g⟩ := resample_ok sp o f o' h
  subst g
  exact ⟨rfl, rfl, rfl, rfl, rfl⟩

/-- Complex spectra cannot be summed in power once they were resampled. -/
theorem C146_resample_sum_wrong (sp : Spline) (o o' : Obj) (ho : Aligned o) (f : List ℝ)
    (hf : f ≠ []) (hm : o.spec.isMagnitude = false) (h : resample sp o f = (o', none)) :
    sumChannels o' true = .error .assertionError := by
  obtain ⟨h1, -, -, -, h5⟩ := C146_resample_domain_wrong sp o o' f h
  refine C146_sum_domain_wrong o'
    (call_aligned sp o o' (.resample f) (fun _ hh => by cases hh) ho h) ?_ ?_
  · rw [h1]
    exact List.length_pos_iff.mpr hf
  · rw [h5, hm]
    exact Or.inr rfl

/-- Resampling to fewer frequencies than there are channels raises an error after the frequency
vector was replaced: grid and data do not fit any more. -/
theorem C146_resample_breaks (sp : Spline) (o : Obj) (f : List ℝ)
    (hl : o.spec.scheme = .linear) (he : o.spec.edges = .zeroPad) (h1 : ∀ x ∈ f, 0 ≤ x)
    (h2 : ∀ i < f.length - 1, f.getD i 0 < f.getD (i + 1) 0)
    (hf : f.length < o.spec.data.cols) :
    ∃ o', resample sp o f = (o', some .assertionError) ∧ o'.spec.freqs = f ∧
      o'.spec.data = o.spec.data ∧ ¬ Aligned o' := by
  have hs : setInterpolator o (if o.spec.isMagnitude then .power else .magnitudePhase)
      o.spec.scheme o.spec.edges = (⟨{ o.spec with
        domain := if o.spec.isMagnitude then .power else .magnitudePhase }, o.coherence⟩, none) := by
    unfold setInterpolator
    cases hm : o.spec.isMagnitude <;> simp
  have hi : ∃ A : Mat ℂ, A.rows = f.length ∧ A.cols = o.spec.data.cols ∧ interpolateAll sp
      { o.spec with domain := if o.spec.isMagnitude then .power else .magnitudePhase } f
      (if o.spec.isMagnitude then .magnitude else .complex) = .ok A := by
    unfold interpolateAll
    dsimp only
    rw [if_neg (by cases o.spec.isMagnitude <;> simp), if_neg (by rw [he]; simp), if_pos hl,
      if_neg (by rw [he]; simp)]
    exact ⟨⟨f.length, o.spec.data.cols, _⟩, rfl, rfl, rfl⟩
  obtain ⟨A, hr, hc, hA⟩ := hi
  have hset : setData ⟨{ o.spec with
        domain := if o.spec.isMagnitude then .power else .magnitudePhase
        freqs := f }, o.coherence⟩ A o.spec.isMagnitude = (⟨{ o.spec with
        domain := if o.spec.isMagnitude then .power else .magnitudePhase
        freqs := f }, o.coherence⟩, some .assertionError) := by
    unfold setData
    rw [if_pos]
    unfold upright
    rw [if_pos (by omega)]
    show A.cols ≠ f.length
    omega
  refine ⟨⟨{ o.spec with
    domain := if o.spec.isMagnitude then .power else .magnitudePhase
    freqs := f }, o.coherence⟩, ?_, rfl, rfl, fun ha => ?_⟩
  · unfold resample
    dsimp only
    rw [hs]
    dsimp only
    rw [hA]
    dsimp only
    rw [setFreqs_of _ f h1 h2]
    dsimp only
    exact hset
  · have := ha.rows
    have := ha.tall
    dsimp only at *
    omega

/-- Octave smoothing of a spectrum whose frequencies are neither linear nor logarithmic raises
TypeError. -/
theorem C146_smoothing_other_wrong (w : Option ℝ → Mat ℝ → Mat ℝ) (o : Obj)
    (h : spacing o.spec.freqs = .other) : octaveSmoothing w o = (o, some .typeError) := by
  unfold octaveSmoothing
  dsimp only
  rw [h]

theorem isClose_self (a : ℝ) : isClose a a := by
  unfold isClose
  rw [sub_self, abs_zero]
  positivity

/-- Equally spaced frequencies are linear, and two frequencies always are. -/
theorem C146_spacing_linear (f : List ℝ) (h2 : 2 ≤ f.length) (d : ℝ)
    (h : ∀ i < f.length - 1, f.getD (i + 1) 0 - f.getD i 0 = d) : spacing f = .linear := by
  unfold spacing
  dsimp only
  rw [if_neg (by omega), if_pos]
  intro i hi
  have h3 := h (f.length - 2) (by omega)
  rw [show f.length - 2 + 1 = f.length - 1 by omega] at h3
  rw [h i hi, h3]
  exact isClose_self d

/-- Frequencies with a constant ratio are logarithmic, unless they pass for linear. -/
theorem C146_spacing_log (f : List ℝ) (h2 : 2 ≤ f.length) (q : ℝ)
    (h : ∀ i, 1 ≤ i → i < f.length - 1 → f.getD (i + 1) 0 / f.getD i 0 = q) :
    spacing f ≠ .other := by
  unfold spacing
  dsimp only
  rw [if_neg (by omega)]
  split_ifs with h3 h4
  · simp
  · simp
  · exfalso
    apply h4
    intro i hi
    have h5 := h (f.length - 2) (by omega) (by omega)
    rw [show f.length - 2 + 1 = f.length - 1 by omega] at h5
    rw [h (i + 1) (by omega) (by omega), h5]
    exact isClose_self q

/-- The first frequency is not looked at: these frequencies count as logarithmic although the first
ratio is 10 and the others are 2. -/
theorem C146_spacing_wrong : spacing [1, 10, 20, 40] = .logarithmic := by
  have h1 : spacing [1, 10, 20, 40] ≠ .other := by
    refine C146_spacing_log _ (by simp) 2 ?_
    intro i hi hl
    simp only [List.length_cons, List.length_nil] at hl
    interval_cases i <;> norm_num [List.getD]
  have h2 : spacing [1, 10, 20, 40] ≠ .linear := by
    unfold spacing
    dsimp only
    rw [if_neg (by simp), if_neg]
    · split_ifs <;> simp
    · intro h
      have := h 0 (by simp)
      unfold isClose at this
      norm_num [List.getD] at this
  cases h : spacing [1, 10, 20, 40] with
  | linear => exact absurd h h2
  | logarithmic => rfl
  | other => exact absurd h h1

/-- One frequency alone is neither linear nor logarithmic: smoothing such a spectrum raises. -/
theorem C146_single (w : Option ℝ → Mat ℝ → Mat ℝ) (o : Obj) (h : o.spec.freqs.length = 1) :
    octaveSmoothing w o = (o, some .typeError) := by
  apply C146_smoothing_other_wrong
  unfold spacing
  dsimp only
  rw [if_pos (by omega)]

/-- A spectrum with two channels on three frequencies and with coherence. -/
noncomputable def sample : Obj :=
  ⟨⟨[1, 2, 3], ⟨3, 2, fun r c => (r + 2 * c : ℕ)⟩, true, .power, .linear, .zeroPad⟩,
    some ⟨3, 2, fun _ c => if c = 0 then 1 else 0⟩⟩

theorem sample_aligned : Aligned sample where
  nonneg := by
    intro x hx
    simp only [sample, List.mem_cons, List.not_mem_nil, or_false] at hx
    rcases hx with rfl | rfl | rfl <;> norm_num
  asc := by
    intro i hi
    simp only [sample, List.length_cons, List.length_nil] at hi
    interval_cases i <;> norm_num [sample, List.getD]
  rows := rfl
  tall := by show 2 ≤ 3; norm_num
  mag := by
    intro _ r _ c _
    simp only [sample]
    rw [Complex.natCast_re]
    positivity

/-- The swapped spectrum really has the wrong coherence: the channel with coherence 1 has moved, the
coherence has not. -/
example : ∃ o', swapChannels sample [1, 0] = (o', none) ∧ o'.coherence = sample.coherence ∧
    (∀ r, o'.spec.data.val r 0 = sample.spec.data.val r 1) ∧
    ∃ G, o'.coherence = some G ∧ G.val 0 0 ≠ G.val 0 1 := by
  obtain ⟨o', h1, h2, -, h4⟩ := C146_swap_wrong sample sample_aligned [1, 0] rfl
    (by simp [sample]) (by simp)
  exact ⟨o', h1, h2, fun r => h4 r 0 (by show 0 < 2; norm_num) 1 rfl, _, h2, by norm_num⟩

example : ∃ o', calls (fun _ _ _ _ => 0) { sample with coherence := none }
    [.swap [1, 0], .interpolator .magnitude .pchip .extend] = (o', none) := by
  obtain ⟨o', h1, -, h3, -⟩ := C146_swap_wrong { sample with coherence := none }
    ⟨sample_aligned.nonneg, sample_aligned.asc, sample_aligned.rows, sample_aligned.tall,
      sample_aligned.mag⟩ [1, 0] rfl (by simp [sample]) (by simp)
  refine ⟨⟨{ o'.spec with domain := .magnitude, scheme := .pchip, edges := .extend },
    o'.coherence⟩, ?_⟩
  unfold calls
  rw [show call (fun _ _ _ _ => 0) { sample with coherence := none } (.swap [1, 0]) =
    (o', none) from h1]
  simp [calls, call, setInterpolator]

end Verif.SpecObj
