import Verif.Model.Collapse
import Verif.Lemmas.SignalData
import Mathlib.Tactic.Ring
import Mathlib.Algebra.Order.Ring.Rat
import Mathlib.Algebra.Field.Rat

/-!
# C38: collapsing a multiband signal does not alter it

True for complex bands and for a single band.  For two or more real bands the first band is
overwritten with the sum: the property fails unless the other bands cancel.
-/

set_option linter.unusedSectionVars false

namespace Verif.Collapse

open SignalData

variable {K : Type} [Field K] [LinearOrder K] [IsStrictOrderedRing K]

/-- Bands of a multiband signal: one shape, not a single sample, all real or all complex. -/
structure Bands (bands : List (State K)) (rows cols : ℕ) (cplx : Bool) : Prop where
  one : 1 ≤ cols
  tall : cols ≤ rows
  more : rows ≠ 1
  shape : ∀ b ∈ bands, b.HasShape rows cols
  imag : ∀ b ∈ bands, b.im.isSome = cplx
  imShape : ∀ b ∈ bands, ∀ B, b.im = some B → B.rows = rows ∧ B.cols = cols

/-- The sum over all bands of the samples at one position. -/
def total (bands : List (State K)) (r c : ℕ) : K := (bands.map fun b => b.sample r c).sum

/-- The sum over all bands of the imaginary parts at one position. -/
def totalIm (bands : List (State K)) (r c : ℕ) : K := (bands.map fun b => b.sampleIm r c).sum

theorem sumRe_eq (bands : List (State K)) (rows cols : ℕ) (cplx : Bool)
    (h : Bands bands rows cols cplx) (r c : ℕ) (hr : r < rows) (hc : c < cols) :
    sumRe bands r c = total bands r c := by
  unfold sumRe total
  congr 1
  refine List.map_congr_left fun b hb => ?_
  have := h.shape b hb
  unfold State.sample
  rw [if_pos ⟨by rw [this.1]; exact hr, by rw [this.2]; exact hc⟩]

theorem sumIm_eq (bands : List (State K)) (rows cols : ℕ) (cplx : Bool)
    (h : Bands bands rows cols cplx) (r c : ℕ) (hr : r < rows) (hc : c < cols) :
    sumIm bands r c = totalIm bands r c := by
  unfold sumIm totalIm
  congr 1
  refine List.map_congr_left fun b hb => ?_
  unfold State.sampleIm
  cases hB : b.im with
  | none => rfl
  | some B =>
    have := h.imShape b hb B hB
    simp [this.1, this.2, hr, hc]

/-- The result is the sum of all bands, up to the factor of the amplitude constraint. -/
theorem C38_result_is_sum (owned cplx : Bool) (bands : List (State K)) (hne : bands ≠ [])
    (rows cols : ℕ) (h : Bands bands rows cols cplx) :
    ∃ t bands', collapse owned bands = .ok (t, bands') ∧ t.HasShape rows cols ∧
      (∀ r < rows, ∀ c < cols, t.sample r c = t.scale * total bands r c ∧
        t.sampleIm r c = t.scale * totalIm bands r c) ∧
      ((∀ b ∈ bands, b.constrain = false) → t.scale = 1) := by
  cases bands with
  | nil => exact absurd rfl hne
  | cons b0 rest =>
    have h0 := h.shape b0 (by simp)
    cases him : b0.im with
    | none =>
      obtain ⟨t, ht, hcon, hshape, hscale, hre, hi, -⟩ := setData_scaled
        ⟨⟨0, 0, fun _ _ => 0⟩, none, b0.constrain, 1⟩
        (⟨b0.re.rows, b0.re.cols, sumRe (b0 :: rest), none⟩ : Input K)
        (by rw [h0.1, h0.2]; exact h.tall) (by rw [h0.1]; exact fun hh => h.more hh.1)
        (by rw [h0.2]; exact h.one)
      have hc : copyWith b0 ⟨b0.re.rows, b0.re.cols, sumRe (b0 :: rest), none⟩ = .ok t := ht
      refine ⟨t, ⟨if owned then t.re else ⟨b0.re.rows, b0.re.cols, sumRe (b0 :: rest)⟩, none,
        b0.constrain, b0.scale⟩ :: rest, ?_, ?_, fun r hr c hc => ⟨?_, ?_⟩, fun hf => ?_⟩
      · unfold collapse
        simp only [him, hc]
        rfl
      · rw [h0.1, h0.2] at hshape
        exact hshape
      · rw [hre r (by rw [h0.1]; exact hr) c (by rw [h0.2]; exact hc)]
        show t.scale * sumRe _ r c = _
        rw [sumRe_eq _ rows cols cplx h r c hr hc]
      · rw [hi r (by rw [h0.1]; exact hr) c (by rw [h0.2]; exact hc)]
        have hz : totalIm (b0 :: rest) r c = 0 := by
          unfold totalIm
          refine List.sum_eq_zero fun x hx => ?_
          obtain ⟨b, hb, rfl⟩ := List.mem_map.mp hx
          have h1 := h.imag b hb
          rw [← h.imag b0 (by simp), him] at h1
          have h2 : b.im = none := by simpa using h1
          unfold State.sampleIm
          rw [h2]
        rw [hz]
        rfl
      · rw [hscale]
        have : b0.constrain = false := hf b0 (by simp)
        simp [this]
    | some B =>
      obtain ⟨t, ht, hcon, hshape, hscale, hre, hi, -⟩ := setData_scaled
        ⟨⟨0, 0, fun _ _ => 0⟩, none, b0.constrain, 1⟩
        (⟨b0.re.rows, b0.re.cols, sumRe (b0 :: rest), some (sumIm (b0 :: rest))⟩ : Input K)
        (by rw [h0.1, h0.2]; exact h.tall) (by rw [h0.1]; exact fun hh => h.more hh.1)
        (by rw [h0.2]; exact h.one)
      have hc : copyWith b0 ⟨b0.re.rows, b0.re.cols, sumRe (b0 :: rest),
        some (sumIm (b0 :: rest))⟩ = .ok t := ht
      refine ⟨t, b0 :: rest, ?_, ?_, fun r hr c hc => ⟨?_, ?_⟩, fun hf => ?_⟩
      · unfold collapse
        simp only [him, hc]
      · rw [h0.1, h0.2] at hshape
        exact hshape
      · rw [hre r (by rw [h0.1]; exact hr) c (by rw [h0.2]; exact hc)]
        show t.scale * sumRe _ r c = _
        rw [sumRe_eq _ rows cols cplx h r c hr hc]
      · rw [hi r (by rw [h0.1]; exact hr) c (by rw [h0.2]; exact hc)]
        show t.scale * sumIm _ r c = _
        rw [sumIm_eq _ rows cols cplx h r c hr hc]
      · rw [hscale]
        have : b0.constrain = false := hf b0 (by simp)
        simp [this]

/-- Complex bands are not altered, so that collapsing twice gives the same. -/
theorem C38_unaltered_partial (owned : Bool) (bands bands' : List (State K)) (t : State K)
    (rows cols : ℕ) (h : Bands bands rows cols true)
    (hc : collapse owned bands = .ok (t, bands')) :
    bands' = bands ∧ collapse owned bands' = .ok (t, bands') := by
  have : bands' = bands := by
    cases bands with
    | nil => cases hc
    | cons b0 rest =>
      have h1 := h.imag b0 (by simp)
      cases him : b0.im with
      | none => rw [him] at h1; cases h1
      | some B =>
        unfold collapse at hc
        simp only [him] at hc
        cases hx : copyWith b0 ⟨b0.re.rows, b0.re.cols, sumRe (b0 :: rest),
          some (sumIm (b0 :: rest))⟩ with
        | error e => rw [hx] at hc; cases hc
        | ok u => rw [hx] at hc; cases hc; rfl
  exact ⟨this, by rw [this]; rw [this] at hc; exact hc⟩

/-- What collapsing does to real bands (without amplitude constraint): the first band
becomes the sum of all. -/
theorem C38_first_band_overwritten (owned : Bool) (b0 : State K) (rest bands' : List (State K))
    (t : State K) (rows cols : ℕ) (h : Bands (b0 :: rest) rows cols false)
    (hcon : b0.constrain = false) (hc : collapse owned (b0 :: rest) = .ok (t, bands')) :
    ∃ b0', bands' = b0' :: rest ∧ b0'.HasShape rows cols ∧ b0'.im = none ∧
      b0'.constrain = false ∧
      ∀ r < rows, ∀ c < cols, b0'.sample r c = b0.sample r c + total rest r c := by
  have h0 := h.shape b0 (by simp)
  have him : b0.im = none := by
    have := h.imag b0 (by simp)
    simpa using this
  have hx := copyWith_ok b0 (⟨b0.re.rows, b0.re.cols, sumRe (b0 :: rest), none⟩ : Input K)
    (by rw [h0.1, h0.2]; exact h.tall) (by rw [h0.1]; exact fun hh => h.more hh.1)
    (by intro hh; rw [hcon] at hh; cases hh)
  unfold collapse at hc
  simp only [him, hx] at hc
  cases hc
  have hm : (if owned = true then (⟨b0.re.rows, b0.re.cols, sumRe (b0 :: rest), none⟩ :
      Input K).reMat else (⟨b0.re.rows, b0.re.cols, sumRe (b0 :: rest), none⟩ : Input K).reMat) =
      ⟨b0.re.rows, b0.re.cols, sumRe (b0 :: rest)⟩ := by
    split_ifs <;> rfl
  refine ⟨_, rfl, ?_, rfl, hcon, fun r hr c hc => ?_⟩
  · unfold State.HasShape
    simp only [hm]
    exact ⟨h0.1, h0.2⟩
  · have hs := sumRe_eq _ rows cols false h r c hr hc
    unfold State.sample at hs ⊢
    simp only [hm]
    rw [if_pos ⟨by rw [h0.1]; exact hr, by rw [h0.2]; exact hc⟩, hs]
    unfold total
    rw [List.map_cons, List.sum_cons]
    rfl

/-- Real bands: the multiband signal is unchanged exactly if the other bands cancel at every
sample. -/
theorem C38_unaltered_iff (owned : Bool) (b0 : State K) (rest bands' : List (State K))
    (t : State K) (rows cols : ℕ) (h : Bands (b0 :: rest) rows cols false)
    (hcon : b0.constrain = false) (hc : collapse owned (b0 :: rest) = .ok (t, bands')) :
    (∀ k r c, r < rows → c < cols → (bands'.getD k b0).sample r c =
      ((b0 :: rest).getD k b0).sample r c) ↔ ∀ r < rows, ∀ c < cols, total rest r c = 0 := by
  obtain ⟨b0', rfl, -, -, -, hval⟩ := C38_first_band_overwritten owned b0 rest bands' t rows cols
    h hcon hc
  constructor
  · intro hh r hr c hc
    have h1 := hh 0 r c hr hc
    rw [show (b0' :: rest).getD 0 b0 = b0' from rfl, show (b0 :: rest).getD 0 b0 = b0 from rfl,
      hval r hr c hc] at h1
    exact add_eq_left.mp h1
  · intro hh k r c hr hc
    cases k with
    | zero =>
      rw [show (b0' :: rest).getD 0 b0 = b0' from rfl, show (b0 :: rest).getD 0 b0 = b0 from rfl,
        hval r hr c hc, hh r hr c hc, add_zero]
    | succ k => rfl

/-- Collapsing real bands a second time counts all bands but the first twice. -/
theorem C38_second_collapse_wrong (owned : Bool) (b0 : State K) (rest bands' : List (State K))
    (t : State K) (rows cols : ℕ) (h : Bands (b0 :: rest) rows cols false)
    (hcon : ∀ b ∈ b0 :: rest, b.constrain = false)
    (hc : collapse owned (b0 :: rest) = .ok (t, bands')) :
    ∃ t' bands'', collapse owned bands' = .ok (t', bands'') ∧
      ∀ r < rows, ∀ c < cols, t'.sample r c = b0.sample r c + 2 * total rest r c := by
  obtain ⟨b0', rfl, hshape, him, hcon', hval⟩ := C38_first_band_overwritten owned b0 rest bands' t
    rows cols h (hcon b0 (by simp)) hc
  have h' : Bands (b0' :: rest) rows cols false := by
    refine ⟨h.one, h.tall, h.more, fun b hb => ?_, fun b hb => ?_, fun b hb B hB => ?_⟩
    · rcases List.mem_cons.mp hb with rfl | hb
      · exact hshape
      · exact h.shape b (by simp [hb])
    · rcases List.mem_cons.mp hb with rfl | hb
      · rw [him]; rfl
      · exact h.imag b (by simp [hb])
    · rcases List.mem_cons.mp hb with rfl | hb
      · rw [him] at hB; cases hB
      · exact h.imShape b (by simp [hb]) B hB
  obtain ⟨t', bands'', ht', -, hv, hs⟩ := C38_result_is_sum owned false _ (by simp) rows cols h'
  refine ⟨t', bands'', ht', fun r hr c hc => ?_⟩
  rw [(hv r hr c hc).1, hs ?_]
  · unfold total
    rw [List.map_cons, List.sum_cons, hval r hr c hc]
    unfold total
    ring
  · intro b hb
    rcases List.mem_cons.mp hb with rfl | hb
    · exact hcon'
    · exact hcon b (by simp [hb])

/-- Concrete case: two real bands with one channel and two samples. -/
example : Bands ([⟨⟨2, 1, fun r _ => r⟩, none, false, 1⟩, ⟨⟨2, 1, fun _ _ => 3⟩, none, false, 1⟩] :
    List (State ℚ)) 2 1 false := by
  refine ⟨le_rfl, by decide, by decide, ?_, ?_, ?_⟩
  · simp [State.HasShape]
  · simp
  · simp

/-- Concrete case: a complex band. -/
example : Bands ([⟨⟨2, 1, fun r _ => r⟩, some ⟨2, 1, fun _ _ => 1⟩, true, 1⟩] :
    List (State ℚ)) 2 1 true := by
  refine ⟨le_rfl, by decide, by decide, ?_, ?_, ?_⟩
  · simp [State.HasShape]
  · simp
  · simp

end Verif.Collapse
