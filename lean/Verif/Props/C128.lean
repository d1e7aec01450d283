import Verif.Model.MultibandAccess
import Verif.Lemmas.SignalData
import Verif.Props.C36
import Verif.Props.C38

/-!
# C128: bands are read and filtered one by one

`get_all_bands(channel)` hands out the chosen channel of every band, `get_all_time_data` all
samples, without changing a value; `filter_multiband_signal` filters band `n` by filter `n`.
-/

set_option linter.unusedSectionVars false

namespace Verif.Multiband

open SignalData Bank LFilter

variable {K : Type} [Field K] [LinearOrder K] [IsStrictOrderedRing K]

/-- The python index `ch` selects position `j` of `cols` positions: counted from the start or
from the end. -/
def Selects (cols : ℕ) (ch : ℤ) (j : ℕ) : Prop := j < cols ∧ (ch = j ∨ ch = (j : ℤ) - cols)

theorem pyIndex_of (cols : ℕ) (ch : ℤ) (j : ℕ) (h : Selects cols ch j) :
    Collapse.pyIndex cols ch = some j := by
  obtain ⟨hj, h | h⟩ := h
  · unfold Collapse.pyIndex
    rw [if_pos (by omega), h]
    simp
  · unfold Collapse.pyIndex
    rw [if_neg (by omega), if_pos (by omega), h]
    simp

theorem pyIndex_none (cols : ℕ) (ch : ℤ) (h : ¬ ∃ j, Selects cols ch j) :
    Collapse.pyIndex cols ch = none := by
  unfold Collapse.pyIndex
  rw [if_neg, if_neg]
  · intro hc
    exact h ⟨(ch + cols).toNat, by omega, Or.inr (by omega)⟩
  · intro hc
    exact h ⟨ch.toNat, by omega, Or.inl (by omega)⟩

theorem mapM_some {α β : Type} (f : α → Option β) (y : β) :
    ∀ l : List α, (∀ a ∈ l, f a = some y) → l.mapM f = some (l.map fun _ => y)
  | [], _ => rfl
  | a :: l, h => by
    rw [List.mapM_cons, h a (by simp), mapM_some f y l fun b hb => h b (by simp [hb])]
    rfl

/-- All bands of the multiband signal have one shape and are all real or all complex. -/
abbrev Uniform (m : MBS K) (rows cols : ℕ) (cplx : Bool) : Prop :=
  Collapse.Bands (m.bands.map Band.sig) rows cols cplx

theorem Uniform.shape' {m : MBS K} {rows cols : ℕ} {cplx : Bool} (h : Uniform m rows cols cplx)
    (b : Band K) (hb : b ∈ m.bands) : b.sig.re.rows = rows ∧ b.sig.re.cols = cols :=
  h.shape b.sig (List.mem_map_of_mem hb)

theorem indices (m : MBS K) (rows cols : ℕ) (cplx : Bool) (h : Uniform m rows cols cplx) (ch : ℤ)
    (j : ℕ) (hj : Selects cols ch j) :
    (m.bands.mapM fun b => Collapse.pyIndex b.sig.re.cols ch) =
      some (m.bands.map fun _ => j) :=
  mapM_some _ j _ fun b hb => by rw [(h.shape' b hb).2]; exact pyIndex_of _ _ _ hj

theorem sample_of (b : Band K) (rows cols : ℕ) (h : b.sig.re.rows = rows ∧ b.sig.re.cols = cols)
    (r c : ℕ) (hr : r < rows) (hc : c < cols) : b.sig.sample r c = b.sig.re.val r c := by
  unfold State.sample
  rw [if_pos ⟨by rw [h.1]; exact hr, by rw [h.2]; exact hc⟩]

theorem sampleIm_of (b : Band K) (rows cols : ℕ)
    (h : ∀ B, b.sig.im = some B → B.rows = rows ∧ B.cols = cols)
    (r c : ℕ) (hr : r < rows) (hc : c < cols) :
    b.sig.sampleIm r c = b.sig.im.elim 0 fun B => B.val r c := by
  unfold State.sampleIm
  cases hB : b.sig.im with
  | none => rfl
  | some B => simp [(h B hB).1, (h B hB).2, hr, hc]

/-- The gathered array is stored as it is if there are not more bands than samples. -/
theorem getAllBands_eq (m : MBS K) (b0 : Band K) (rest : List (Band K))
    (hm : m.bands = b0 :: rest) (hsame : m.same = true) (rows cols : ℕ) (cplx : Bool)
    (h : Uniform m rows cols cplx) (ch : ℤ) (j : ℕ) (hj : Selects cols ch j) :
    getAllBands m ch =
      match construct (gathered b0 m.bands (m.bands.map fun _ => j)) false with
      | .error e => .error e
      | .ok s => .ok (.signal b0.rate s) := by
  have hi := indices m rows cols cplx h ch j hj
  have hall : (m.bands.all fun b => b.sig.re.rows == b0.sig.re.rows) = true := by
    rw [List.all_eq_true]
    intro b hb
    rw [(h.shape' b hb).1, (h.shape' b0 (by rw [hm]; simp)).1]
    simp
  unfold getAllBands
  rw [hi]
  conv_lhs => rw [hm]
  simp only [hsame, if_true]
  rw [hm] at hall
  rw [if_pos hall]
  rw [hm]
  cases construct (gathered b0 (b0 :: rest) (List.map (fun _ => j) (b0 :: rest))) false <;> rfl

/-- `get_all_bands` of a multiband signal with one sampling rate and at most as many bands as
samples: channel `n` of the result is the selected channel of band `n`, sample by sample,
real and imaginary part, without any scaling. -/
theorem C128_bands (m : MBS K) (hsame : m.same = true) (hne : m.bands ≠ []) (rows cols : ℕ)
    (cplx : Bool) (h : Uniform m rows cols cplx) (hfew : m.bands.length ≤ rows) (ch : ℤ) (j : ℕ)
    (hj : Selects cols ch j) :
    ∃ s, getAllBands m ch = .ok (.signal (m.bands.head hne).rate s) ∧
      s.HasShape rows m.bands.length ∧ s.scale = 1 ∧ s.im.isSome = cplx ∧
      ∀ r < rows, ∀ n (hn : n < m.bands.length),
        s.sample r n = m.bands[n].sig.sample r j ∧
        s.sampleIm r n = m.bands[n].sig.sampleIm r j := by
  obtain ⟨b0, rest, hm⟩ := List.exists_cons_of_ne_nil hne
  have hb0 : b0 ∈ m.bands := by rw [hm]; simp
  have h0 := h.shape' b0 hb0
  have hpos : 1 ≤ m.bands.length := List.length_pos_iff.mpr hne
  obtain ⟨s, hs, -, hshape, hscale, hre, him, hsome⟩ := setData_scaled
    (⟨⟨0, 0, fun _ _ => 0⟩, none, false, 1⟩ : State K)
    (gathered b0 m.bands (m.bands.map fun _ => j))
    (by show m.bands.length ≤ b0.sig.re.rows; rw [h0.1]; exact hfew)
    (by show ¬ (b0.sig.re.rows = 1 ∧ _); rw [h0.1]; exact fun hh => h.more hh.1) hpos
  have hscale1 : s.scale = 1 := by rw [hscale]; simp
  refine ⟨s, ?_, ?_, hscale1, ?_, fun r hr n hn => ⟨?_, ?_⟩⟩
  · rw [getAllBands_eq m b0 rest hm hsame rows cols cplx h ch j hj]
    have hc : construct (gathered b0 m.bands (m.bands.map fun _ => j)) false = .ok s := hs
    rw [hc]
    simp only [hm, List.head_cons]
  · have : (gathered b0 m.bands (m.bands.map fun _ => j)).rows = rows := h0.1
    rw [this] at hshape
    exact hshape
  · rw [hsome, ← h.imag b0.sig (List.mem_map_of_mem hb0)]
    simp [gathered]
  · rw [hre r (by show r < b0.sig.re.rows; rw [h0.1]; exact hr) n hn, hscale1, one_mul]
    have hmem : m.bands[n] ∈ m.bands := List.getElem_mem hn
    rw [sample_of _ rows cols (h.shape' _ hmem) r j hr hj.1]
    show (m.bands.getD n b0).sig.re.val r ((m.bands.map fun _ => j).getD n 0) = _
    rw [List.getD_eq_getElem _ _ hn, List.getD_eq_getElem _ _ (by simpa using hn)]
    simp
  · rw [him r (by show r < b0.sig.re.rows; rw [h0.1]; exact hr) n hn, hscale1, one_mul]
    have hmem : m.bands[n] ∈ m.bands := List.getElem_mem hn
    rw [sampleIm_of _ rows cols (h.imShape _ (List.mem_map_of_mem hmem)) r j hr hj.1]
    have hi0 := h.imag b0.sig (List.mem_map_of_mem hb0)
    have hin := h.imag _ (List.mem_map_of_mem hmem)
    show ((b0.sig.im.map fun _ r n => (m.bands.getD n b0).sig.im.elim 0 fun B =>
      B.val r ((m.bands.map fun _ => j).getD n 0)).elim 0 fun f => f r n) = _
    cases hB0 : b0.sig.im with
    | none =>
      rw [hB0] at hi0
      have : (m.bands[n]).sig.im = none := by
        rw [← hi0] at hin
        simpa using hin
      rw [this]
      rfl
    | some B0 =>
      simp only [Option.map_some, Option.elim_some]
      rw [List.getD_eq_getElem _ _ hn,
        List.getD_eq_getElem (m.bands.map fun _ => j) _ (by simpa using hn)]
      simp

/-- The result never constrains its amplitude, whatever the bands do. -/
theorem C128_unconstrained (m : MBS K) (ch : ℤ) (rate : ℕ) (s : State K)
    (h : getAllBands m ch = .ok (.signal rate s)) : s.constrain = false ∧ s.scale = 1 := by
  unfold getAllBands at h
  split at h
  · cases h
  · split at h
    · cases h
    · split at h
      · split at h
        · split at h
          · cases h
          · rename_i t ht
            cases h
            unfold construct setData at ht
            split at ht
            · cases ht
            · simp only [Bool.false_eq_true, if_false] at ht
              cases ht
              exact ⟨rfl, rfl⟩
        · cases h
      · cases h

/-- More bands than samples: the signal is transposed.  It has as many channels as the bands
have samples, and channel `r` holds sample `r` of all bands. -/
theorem C128_many_bands_wrong (m : MBS K) (hsame : m.same = true) (hne : m.bands ≠ [])
    (rows cols : ℕ) (cplx : Bool) (h : Uniform m rows cols cplx)
    (hmany : rows < m.bands.length) (ch : ℤ) (j : ℕ) (hj : Selects cols ch j) :
    ∃ s, getAllBands m ch = .ok (.signal (m.bands.head hne).rate s) ∧
      s.HasShape m.bands.length rows ∧
      ∀ r < rows, ∀ n (hn : n < m.bands.length), s.sample n r = m.bands[n].sig.sample r j := by
  obtain ⟨b0, rest, hm⟩ := List.exists_cons_of_ne_nil hne
  have hb0 : b0 ∈ m.bands := by rw [hm]; simp
  have h0 := h.shape' b0 hb0
  have hr1 : b0.sig.re.rows ≠ 1 := by rw [h0.1]; exact h.more
  set x := gathered b0 m.bands (m.bands.map fun _ => j) with hx
  have hxr : x.rows = rows := h0.1
  have hxc : x.cols = m.bands.length := rfl
  have hc : construct x false = .ok ⟨x.T.reMat, x.T.imMat, false, 1⟩ := by
    have hf : standardForm x = .ok x.T := by
      unfold standardForm
      rw [if_neg (by rw [hxr]; exact fun hh => h.more hh.1)]
      simp only [hxr, h.more, if_false]
      rw [if_pos (by rw [hxc]; exact hmany)]
    unfold construct setData
    rw [hf]
    simp
  refine ⟨⟨x.T.reMat, x.T.imMat, false, 1⟩, ?_, ⟨hxc, hxr⟩, fun r hr n hn => ?_⟩
  · rw [getAllBands_eq m b0 rest hm hsame rows cols cplx h ch j hj, ← hx, hc]
    simp only [hm, List.head_cons]
  · have hmem : m.bands[n] ∈ m.bands := List.getElem_mem hn
    rw [sample_of _ rows cols (h.shape' _ hmem) r j hr hj.1]
    unfold State.sample
    rw [if_pos (by exact ⟨by rw [show (x.T.reMat).rows = x.cols from rfl, hxc]; exact hn,
      by rw [show (x.T.reMat).cols = x.rows from rfl, hxr]; exact hr⟩)]
    show (m.bands.getD n b0).sig.re.val r ((m.bands.map fun _ => j).getD n 0) = _
    rw [List.getD_eq_getElem _ _ hn, List.getD_eq_getElem _ _ (by simpa using hn)]
    simp

/-- Different sampling rates: the vectors of the selected channel and the rates, band by
band. -/
theorem C128_multirate (m : MBS K) (hsame : m.same = false) (hne : m.bands ≠ []) (ch : ℤ)
    (js : List ℕ) (hlen : js.length = m.bands.length)
    (hj : ∀ n (hn : n < m.bands.length), Selects m.bands[n].sig.re.cols ch (js.getD n 0)) :
    ∃ data, getAllBands m ch = .ok (.vectors data (m.bands.map Band.rate)) ∧
      data.length = m.bands.length ∧
      ∀ n (hn : n < m.bands.length), (data.getD n ([], none)).1 =
          (List.range m.bands[n].sig.re.rows).map (fun r => m.bands[n].sig.sample r (js.getD n 0)) ∧
        ((data.getD n ([], none)).2.isSome = m.bands[n].sig.im.isSome) ∧
        ∀ B, m.bands[n].sig.im = some B → (data.getD n ([], none)).2 =
          some ((List.range B.rows).map fun r => B.val r (js.getD n 0)) := by
  obtain ⟨b0, rest, hm⟩ := List.exists_cons_of_ne_nil hne
  have hi : (m.bands.mapM fun b => Collapse.pyIndex b.sig.re.cols ch) = some js := by
    clear hm hne hsame
    generalize m.bands = l at hlen hj
    induction l generalizing js with
    | nil => cases js with
      | nil => rfl
      | cons _ _ => simp at hlen
    | cons b l ih =>
      cases js with
      | nil => simp at hlen
      | cons j js =>
        have h1 := hj 0 (by simp)
        have h2 := ih js (by simpa using hlen) fun n hn => hj (n + 1) (by simpa using hn)
        rw [List.mapM_cons, pyIndex_of _ _ _ (by simpa using h1), h2]
        rfl
  refine ⟨(m.bands.zip js).map fun p =>
    (colOf p.1.sig.re p.2, p.1.sig.im.map fun B => colOf B p.2), ?_, ?_, fun n hn => ?_⟩
  · unfold getAllBands
    rw [hi, hm]
    simp [hsame]
  · simp [hlen]
  · have hn2 : n < js.length := by omega
    have hz : n < (m.bands.zip js).length := by simp; omega
    rw [List.getD_eq_getElem _ _ (by simpa using hz), List.getElem_map, List.getElem_zip]
    rw [List.getD_eq_getElem _ _ hn2]
    have hs := (hj n hn).1
    rw [List.getD_eq_getElem _ _ hn2] at hs
    refine ⟨?_, by simp, fun B hB => by simp [hB, colOf]⟩
    unfold colOf
    refine List.map_congr_left fun r hr => ?_
    unfold State.sample
    rw [if_pos ⟨List.mem_range.mp hr, hs⟩]

/-- A channel that does not exist in some band raises IndexError. -/
theorem C128_no_channel (m : MBS K) (ch : ℤ) (b : Band K) (hb : b ∈ m.bands)
    (hno : ¬ ∃ j, Selects b.sig.re.cols ch j) : getAllBands m ch = .error .indexError := by
  have hi : (m.bands.mapM fun b => Collapse.pyIndex b.sig.re.cols ch) = none := by
    generalize m.bands = l at hb
    induction l with
    | nil => simp at hb
    | cons a l ih =>
      rw [List.mapM_cons]
      rcases List.mem_cons.mp hb with rfl | hb
      · rw [pyIndex_none _ _ hno]
        rfl
      · rw [ih hb]
        cases Collapse.pyIndex a.sig.re.cols ch <;> rfl
  unfold getAllBands
  rw [hi]
  cases m.bands <;> rfl

/-- Without bands both getters raise IndexError. -/
theorem C128_no_bands (m : MBS K) (h : m.bands = []) (ch : ℤ) :
    getAllBands m ch = .error .indexError ∧ getAllTimeData m = .error .indexError := by
  unfold getAllBands getAllTimeData
  rw [h]
  exact ⟨rfl, rfl⟩

/-- `get_all_time_data` with one sampling rate: entry `(r, n, c)` is sample `r` of channel `c`
of band `n`, for any number of bands. -/
theorem C128_time_data (m : MBS K) (hsame : m.same = true) (hne : m.bands ≠ []) (rows cols : ℕ)
    (cplx : Bool) (h : Uniform m rows cols cplx) :
    ∃ A, getAllTimeData m = .ok (.array A (m.bands.head hne).rate) ∧ A.times = rows ∧
      A.bands = m.bands.length ∧ A.channels = cols ∧ A.im.isSome = cplx ∧
      ∀ r < rows, ∀ n (hn : n < m.bands.length), ∀ c < cols,
        A.re r n c = m.bands[n].sig.sample r c ∧
        (A.im.elim 0 fun f => f r n c) = m.bands[n].sig.sampleIm r c := by
  obtain ⟨b0, rest, hm⟩ := List.exists_cons_of_ne_nil hne
  have hb0 : b0 ∈ m.bands := by rw [hm]; simp
  have h0 := h.shape' b0 hb0
  have hall : (m.bands.all fun b => b.sig.re.rows == b0.sig.re.rows &&
      b.sig.re.cols == b0.sig.re.cols) = true := by
    rw [List.all_eq_true]
    intro b hb
    rw [(h.shape' b hb).1, (h.shape' b hb).2, h0.1, h0.2]
    simp
  refine ⟨⟨b0.sig.re.rows, m.bands.length, b0.sig.re.cols,
    fun r n c => (m.bands.getD n b0).sig.re.val r c,
    b0.sig.im.map fun _ r n c => (m.bands.getD n b0).sig.im.elim 0 fun B => B.val r c⟩, ?_, h0.1,
    rfl, h0.2, ?_, fun r hr n hn c hc => ⟨?_, ?_⟩⟩
  · unfold getAllTimeData
    simp only [hm, List.head_cons, hsame, if_true] at hall ⊢
    rw [if_pos hall]
  · rw [← h.imag b0.sig (List.mem_map_of_mem hb0)]
    simp
  · have hmem : m.bands[n] ∈ m.bands := List.getElem_mem hn
    rw [sample_of _ rows cols (h.shape' _ hmem) r c hr hc]
    simp only
    rw [List.getD_eq_getElem _ _ hn]
  · have hmem : m.bands[n] ∈ m.bands := List.getElem_mem hn
    rw [sampleIm_of _ rows cols (h.imShape _ (List.mem_map_of_mem hmem)) r c hr hc]
    have hi0 := h.imag b0.sig (List.mem_map_of_mem hb0)
    have hin := h.imag _ (List.mem_map_of_mem hmem)
    cases hB0 : b0.sig.im with
    | none =>
      rw [hB0] at hi0
      have : (m.bands[n]).sig.im = none := by
        rw [← hi0] at hin
        simpa using hin
      rw [this]
      rfl
    | some B0 =>
      simp only [Option.map_some, Option.elim_some]
      rw [List.getD_eq_getElem _ _ hn]

/-- `get_all_time_data` with different rates: the data of every band with its rate. -/
theorem C128_time_data_multirate (m : MBS K) (hsame : m.same = false) (hne : m.bands ≠ []) :
    getAllTimeData m =
      .ok (.arrays (m.bands.map fun b => ((b.sig.re, b.sig.im), b.rate))) := by
  obtain ⟨b0, rest, hm⟩ := List.exists_cons_of_ne_nil hne
  unfold getAllTimeData
  rw [hm]
  simp [hsame]

theorem sum_getElem_range (l : List (Band K)) (f : Band K → K) :
    (∑ n ∈ Finset.range l.length, if hn : n < l.length then f l[n] else 0) = (l.map f).sum := by
  rw [Finset.sum_range]
  simp only [Fin.is_lt, dite_true]
  rw [← List.sum_ofFn]
  congr 1
  refine List.ext_getElem (by simp) fun i h1 h2 => ?_
  simp

/-- Adding up the channels of `get_all_bands(c)` gives channel `c` of the collapsed signal,
for bands that do not constrain their amplitude. -/
theorem C128_sum_is_collapse (m : MBS K) (hsame : m.same = true) (hne : m.bands ≠ [])
    (rows cols : ℕ) (cplx : Bool) (h : Uniform m rows cols cplx) (hfew : m.bands.length ≤ rows)
    (hcon : ∀ b ∈ m.bands, b.sig.constrain = false) (owned : Bool) (ch : ℤ) (j : ℕ)
    (hj : Selects cols ch j) :
    ∃ rate s t left, getAllBands m ch = .ok (.signal rate s) ∧
      Collapse.collapse owned (m.bands.map Band.sig) = .ok (t, left) ∧
      ∀ r < rows, (∑ n ∈ Finset.range m.bands.length, s.sample r n) = t.sample r j := by
  obtain ⟨s, hs, -, -, -, hv⟩ := C128_bands m hsame hne rows cols cplx h hfew ch j hj
  obtain ⟨t, left, ht, -, htv, hsc⟩ := Collapse.C38_result_is_sum owned cplx
    (m.bands.map Band.sig) (by simpa using hne) rows cols h
  refine ⟨_, s, t, left, hs, ht, fun r hr => ?_⟩
  have h1 : t.scale = 1 := hsc fun b hb => by
    obtain ⟨a, ha, rfl⟩ := List.mem_map.mp hb
    exact hcon a ha
  rw [(htv r hr j hj.1).1, h1, one_mul]
  unfold Collapse.total
  rw [List.map_map]
  rw [← sum_getElem_range m.bands ((fun b => b.sample r j) ∘ Band.sig)]
  refine Finset.sum_congr rfl fun n hn => ?_
  have hn' := Finset.mem_range.mp hn
  rw [dif_pos hn', (hv r hr n hn').1]
  rfl

end Verif.Multiband
