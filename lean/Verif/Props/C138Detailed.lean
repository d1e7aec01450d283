import Verif.Model.DetailedRir
import Verif.Props.C138

/-!
# C138: detailed absorption
-/

namespace Verif.ReverbTail

open Verif.Room Verif.SignalData

theorem padTrim_length (x : List ℝ) (n : ℕ) : (padTrim x n true).length = n := by
  unfold padTrim
  split_ifs with h1 h2 <;> simp_all
  omega

theorem getD_zipWith_add (x y : List ℝ) (h : x.length = y.length) (i : ℕ) :
    (List.zipWith (· + ·) x y).getD i 0 = x.getD i 0 + y.getD i 0 := by
  simp only [List.getD_eq_getElem?_getD, List.getElem?_zipWith]
  by_cases hi : i < x.length
  · rw [List.getElem?_eq_getElem hi, List.getElem?_eq_getElem (by omega : i < y.length)]
    simp
  · rw [List.getElem?_eq_none (by omega), List.getElem?_eq_none (by omega)]
    simp

theorem accumulate_spec (gen : List ℝ → Except Err (List ℝ)) (band : ℕ → List ℝ → List ℝ) (n : ℕ)
    (hband : ∀ b x, (band b x).length = x.length) (columns : List (List ℝ)) :
    ∀ (ind : ℕ) (rir : List ℝ), rir.length = n → ∀ h : ℕ → List ℝ,
      (∀ k < columns.length, gen (columns.getD k []) = .ok (h k)) →
      ∃ x, accumulate gen band n columns ind rir = .ok x ∧ x.length = n ∧
        ∀ i, x.getD i 0 = rir.getD i 0 +
          ∑ k ∈ Finset.range columns.length, (band (ind + k) (padTrim (h k) n true)).getD i 0 := by
  induction columns with
  | nil =>
    intro ind rir hl h _
    exact ⟨rir, rfl, hl, fun i => by simp⟩
  | cons a rest ih =>
    intro ind rir hl h hgen
    have h0 := hgen 0 (by simp)
    simp only [List.getD_cons_zero] at h0
    have hlen : rir.length = (band ind (padTrim (h 0) n true)).length := by rw [hband, padTrim_length, hl]
    obtain ⟨x, h1, h2, h3⟩ := ih (ind + 1) (List.zipWith (· + ·) rir (band ind (padTrim (h 0) n true)))
      (by rw [List.length_zipWith, ← hlen, hl, min_self]) (fun k => h (k + 1))
      (fun k hk => by
        have := hgen (k + 1) (by simpa using hk)
        simpa using this)
    refine ⟨x, ?_, h2, fun i => ?_⟩
    · unfold accumulate
      rw [h0]
      exact h1
    · rw [h3, getD_zipWith_add _ _ hlen, List.length_cons, Finset.sum_range_succ', add_assoc]
      congr 1
      rw [add_comm, add_zero]
      congr 1
      refine Finset.sum_congr rfl fun k _ => ?_
      rw [show ind + 1 + k = ind + (k + 1) by omega]

/-- With detailed absorption the response is the sum over the bands of the band of the response that belongs to the
absorption in this band, at the requested length. -/
theorem C138_detailed (r : RoomState) (columns : List (List ℝ)) (band : ℕ → List ℝ → List ℝ)
    (hband : ∀ b x, (band b x).length = x.length) (s p : Fin 3 → ℝ) (hs : inRoom r.dims s) (hp : inRoom r.dims p)
    (sr length : ℝ) (mo : Option ℕ) (g : ℕ → ℝ) (h : ℕ → List ℝ)
    (hgen : ∀ k < columns.length, generateRir r.dims (columns.getD k []) s p r.t60 mo sr = .ok (h k)) :
    ∃ x : List ℝ, generateDetailed r (some columns) band s p sr length false mo g = (.ok (x.map some), r) ∧
      x.length = ⌊length * sr⌋₊ ∧
      ∀ i, x.getD i 0 = ∑ k ∈ Finset.range columns.length, (band k (padTrim (h k) ⌊length * sr⌋₊ true)).getD i 0 := by
  obtain ⟨x, h1, h2, h3⟩ := accumulate_spec (fun a => generateRir r.dims a s p r.t60 mo sr) band ⌊length * sr⌋₊ hband
    columns 0 (List.replicate ⌊length * sr⌋₊ 0) (by simp) h hgen
  refine ⟨x, ?_, h2, fun i => ?_⟩
  · unfold generateDetailed
    rw [if_neg (not_not.2 hs), if_neg (not_not.2 hp)]
    dsimp only
    rw [h1]
    simp
  · rw [h3]
    simp [List.getD_eq_getElem?_getD, List.getElem?_replicate]
    split_ifs <;> simp

/-- If the absorption is the same in all bands and the bands add up to the signal, detailed absorption gives the
response of the image source method for this absorption. -/
theorem C138_detailed_uniform (r : RoomState) (columns : List (List ℝ)) (alphas : List ℝ)
    (hc : ∀ a ∈ columns, a = alphas) (band : ℕ → List ℝ → List ℝ) (hband : ∀ b x, (band b x).length = x.length)
    (hsum : ∀ (x : List ℝ) (i : ℕ), ∑ b ∈ Finset.range columns.length, (band b x).getD i 0 = x.getD i 0)
    (s p : Fin 3 → ℝ) (hs : inRoom r.dims s) (hp : inRoom r.dims p) (sr length : ℝ) (mo : Option ℕ) (g : ℕ → ℝ)
    (h : List ℝ) (hgen : generateRir r.dims alphas s p r.t60 mo sr = .ok h) :
    generateDetailed r (some columns) band s p sr length false mo g =
      (.ok ((padTrim h ⌊length * sr⌋₊ true).map some), r) := by
  obtain ⟨x, h1, h2, h3⟩ := C138_detailed r columns band hband s p hs hp sr length mo g (fun _ => h) (fun k hk => by
    have : columns.getD k [] = alphas := hc _ (by
      rw [List.getD_eq_getElem _ _ hk]
      exact List.getElem_mem hk)
    rw [this, hgen])
  rw [h1]
  have : x = padTrim h ⌊length * sr⌋₊ true := by
    apply List.ext_getElem
    · rw [h2, padTrim_length]
    · intro i hi hi'
      have := h3 i
      rw [hsum, List.getD_eq_getElem _ _ hi, List.getD_eq_getElem _ _ hi'] at this
      exact this
  rw [this]

/-- Rooms without detailed absorption and positions outside of the room are refused. -/
theorem C138_detailed_refused (r : RoomState) (columns : Option (List (List ℝ))) (band : ℕ → List ℝ → List ℝ)
    (s p : Fin 3 → ℝ) (sr length : ℝ) (tail : Bool) (mo : Option ℕ) (g : ℕ → ℝ)
    (h : columns = none ∨ ¬ inRoom r.dims s ∨ ¬ inRoom r.dims p) :
    generateDetailed r columns band s p sr length tail mo g = (.error .assertionError, r) := by
  unfold generateDetailed
  by_cases hs : inRoom r.dims s
  · rw [if_neg (not_not.2 hs)]
    by_cases hp : inRoom r.dims p
    · rw [if_neg (not_not.2 hp)]
      rcases h with rfl | h | h
      · rfl
      · exact absurd hs h
      · exact absurd hp h
    · rw [if_pos hp]
  · rw [if_pos hs]

/-- **Disagreement.** The tail only fills samples that are exactly zero.  The filters leave no such sample, and the
tail changes nothing. -/
theorem C138_no_zeros_no_tail (x : List ℝ) (mixing t60 sr : ℝ) (g : ℕ → ℝ) (r : List (Option ℝ))
    (h : addTail x mixing t60 sr g = .ok r) (hx : ∀ i < x.length, x.getD i 0 ≠ 0) : r = x.map some := by
  obtain ⟨h1, h2, -⟩ := C138_kept x mixing t60 sr g r h
  apply List.ext_getElem
  · rw [h1, List.length_map]
  · intro i hi hi'
    have hix : i < x.length := by omega
    have := h2 i hix (hx i hix)
    rw [List.getD_eq_getElem _ _ hi, List.getD_eq_getElem _ _ hix] at this
    rw [this, List.getElem_map]

/-- Bands that meet the hypotheses: two halves. -/
example : (∀ (_b : ℕ) (x : List ℝ), (x.map (· / 2)).length = x.length) ∧
    ∀ (x : List ℝ) (i : ℕ), ∑ _b ∈ Finset.range 2, (x.map (· / 2)).getD i 0 = x.getD i 0 := by
  refine ⟨fun _ _ => by simp, fun x i => ?_⟩
  rw [Finset.sum_const, Finset.card_range]
  simp only [List.getD_eq_getElem?_getD, List.getElem?_map]
  cases x[i]? <;> simp
  ring

end Verif.ReverbTail
