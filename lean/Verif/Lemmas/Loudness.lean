import Verif.Model.Loudness
import Verif.Spec.Loudness
import Verif.Lemmas.Framing
import Verif.Lemmas.SignalData
import Verif.Lemmas.LFilter
import Mathlib.Analysis.SpecialFunctions.Log.Base

/-! Lemmas about the model of the integrated loudness. -/

namespace Verif.Loudness

open Verif.SignalData Verif.Bank Verif.Biquad Verif.Framing Verif.Level Verif.LFilter

/-- Energy of a block with the given means of its channels. -/
noncomputable def blockEnergy (cols : ℕ) (z : List ℝ) : ℝ :=
  ∑ c ∈ Finset.range cols, weight c * z.getD c 0

theorem weight_pos (c : ℕ) : 0 < weight c := by
  unfold weight
  split_ifs <;> norm_num

theorem zip_weights (cols : ℕ) (h : cols ≤ 5) (z : List ℝ) (hz : z.length = cols) :
    (List.zipWith (· * ·) z (channelWeights cols)).sum = blockEnergy cols z := by
  unfold blockEnergy channelWeights
  subst hz
  rcases z with _ | ⟨a, _ | ⟨b, _ | ⟨c, _ | ⟨d, _ | ⟨e, _ | ⟨f, z⟩⟩⟩⟩⟩⟩
  · simp
  · simp [weight]
  · simp [weight, Finset.sum_range_succ]
  · simp [weight, Finset.sum_range_succ]; ring
  · simp [weight, Finset.sum_range_succ]; ring
  · simp [weight, Finset.sum_range_succ]; ring
  · simp only [List.length_cons] at h; omega

theorem energy_mean (cols : ℕ) (zs : List (List ℝ)) :
    blockEnergy cols ((List.range cols).map fun (c : ℕ) =>
      (zs.map fun z => z.getD c 0).sum / zs.length) = meanOf (zs.map (blockEnergy cols)) := by
  unfold blockEnergy meanOf
  have h1 : ∀ zs : List (List ℝ),
      ∑ c ∈ Finset.range cols, weight c * (zs.map fun z => z.getD c 0).sum =
        (zs.map fun z => ∑ c ∈ Finset.range cols, weight c * z.getD c 0).sum := by
    intro zs
    induction zs with
    | nil => simp
    | cons z zs ih =>
      simp only [List.map_cons, List.sum_cons]
      rw [← ih, ← Finset.sum_add_distrib]
      exact Finset.sum_congr rfl fun c _ => by ring
  rw [List.length_map, ← h1, Finset.sum_div]
  refine Finset.sum_congr rfl fun c hc => ?_
  rw [getD_map_range, if_pos (Finset.mem_range.mp hc)]
  ring

/-- Loudness of an energy. -/
noncomputable def loud (e : ℝ) : WithBot ℝ := (logDb 10 e).map (-0.691 + ·)

theorem gatedLoudness_eq (cols : ℕ) (h : cols ≤ 5) (z : List ℝ) (hz : z.length = cols) :
    gatedLoudness (channelWeights cols) z = loud (blockEnergy cols z) := by
  unfold gatedLoudness loud
  rw [zip_weights cols h z hz]

theorem loud_pos {e : ℝ} (he : 0 < e) : loud e = ((-0.691 + 10 * Real.logb 10 e : ℝ) : WithBot ℝ) := by
  unfold loud logDb
  rw [if_neg he.ne']
  rfl

theorem lt_loud (b : ℝ) {e : ℝ} (he : 0 ≤ e) :
    (b : WithBot ℝ) < loud e ↔ (10 : ℝ) ^ ((b + 0.691) / 10) < e := by
  rcases he.eq_or_lt with h | h
  · rw [← h]
    unfold loud logDb
    rw [if_pos rfl]
    constructor
    · intro h'
      exact absurd h' (by simp)
    · intro h'
      exact absurd h' (not_lt.mpr (by positivity))
  · rw [loud_pos h, WithBot.coe_lt_coe, ← Real.lt_logb_iff_rpow_lt (by norm_num) h]
    constructor <;> intro h' <;> linarith

/-- The threshold ten decibels below the loudness of an energy. -/
theorem lt_loud_relative {m e : ℝ} (hm : 0 < m) (he : 0 ≤ e) :
    (loud m).map (· - 10) < loud e ↔ m / 10 < e := by
  rw [loud_pos hm]
  have : (WithBot.map (· - 10) ((-0.691 + 10 * Real.logb 10 m : ℝ) : WithBot ℝ)) =
    ((-0.691 + 10 * Real.logb 10 m - 10 : ℝ) : WithBot ℝ) := rfl
  rw [this, lt_loud _ he]
  have h2 : (10 : ℝ) ^ ((-0.691 + 10 * Real.logb 10 m - 10 + 0.691) / 10) = m / 10 := by
    have : (-0.691 + 10 * Real.logb 10 m - 10 + 0.691) / 10 = Real.logb 10 m - 1 := by ring
    rw [this, Real.rpow_sub (by norm_num), Real.rpow_logb (by norm_num) (by norm_num) hm,
      Real.rpow_one]
  rw [h2]

theorem sum_gt {l : List ℝ} {t : ℝ} (hl : l ≠ []) (h : ∀ v ∈ l, t < v) : t * l.length < l.sum := by
  induction l with
  | nil => exact absurd rfl hl
  | cons a l ih =>
    have ha := h a (by simp)
    rw [List.sum_cons, List.length_cons]
    push_cast
    by_cases hl' : l = []
    · subst hl'; simpa using ha
    · have := ih hl' fun v hv => h v (by simp [hv])
      linarith

theorem lt_meanOf {l : List ℝ} {t : ℝ} (hl : l ≠ []) (h : ∀ v ∈ l, t < v) : t < meanOf l := by
  unfold meanOf
  have : (0 : ℝ) < l.length := by exact_mod_cast List.length_pos_of_ne_nil hl
  rw [lt_div_iff₀ this]
  exact sum_gt hl h

theorem sum_le {l : List ℝ} {t : ℝ} (h : ∀ v ∈ l, v ≤ t) : l.sum ≤ t * l.length := by
  induction l with
  | nil => simp
  | cons a l ih =>
    have ha := h a (by simp)
    have := ih fun v hv => h v (by simp [hv])
    rw [List.sum_cons, List.length_cons]
    push_cast
    linarith

theorem meanOf_le {l : List ℝ} {t : ℝ} (hl : l ≠ []) (h : ∀ v ∈ l, v ≤ t) : meanOf l ≤ t := by
  unfold meanOf
  have : (0 : ℝ) < l.length := by exact_mod_cast List.length_pos_of_ne_nil hl
  rw [div_le_iff₀ this]
  exact sum_le h

theorem passing_pos {e : List ℝ} {v : ℝ} (h : v ∈ passing e) : 0 < v := by
  have := List.mem_filter.mp h
  have h2 : (10 : ℝ) ^ (((-70 : ℝ) + 0.691) / 10) < v := by simpa using this.2
  exact lt_trans (by positivity) h2

theorem kept_ne_nil {e : List ℝ} (h : passing e ≠ []) : kept e ≠ [] := by
  intro hk
  have hmean : 0 < meanOf (passing e) := lt_meanOf h fun v hv => passing_pos hv
  have h1 : ∀ v ∈ passing e, v ≤ meanOf (passing e) / 10 := by
    intro v hv
    by_contra hc
    have : v ∈ kept e := List.mem_filter.mpr ⟨hv, by simpa using hc⟩
    rw [hk] at this
    exact absurd this (by simp)
  have := meanOf_le h h1
  linarith

theorem kept_pos {e : List ℝ} {v : ℝ} (h : v ∈ kept e) : 0 < v :=
  passing_pos (List.mem_filter.mp h).1

theorem above_map (cols : ℕ) (h5 : cols ≤ 5) (zs : List (List ℝ))
    (hz : ∀ z ∈ zs, z.length = cols) (b : WithBot ℝ) (q : ℝ → Bool)
    (hq : ∀ z ∈ zs, (b < loud (blockEnergy cols z) ↔ q (blockEnergy cols z) = true)) :
    (above (channelWeights cols) (some b) zs).map (blockEnergy cols) =
      (zs.map (blockEnergy cols)).filter q := by
  unfold above
  simp only
  rw [List.filter_map]
  congr 1
  refine List.filter_congr fun z hz' => ?_
  rw [gatedLoudness_eq cols h5 z (hz z hz')]
  have := hq z hz'
  simp only [Function.comp]
  by_cases hc : b < loud (blockEnergy cols z)
  · rw [this.mp hc]; simpa using hc
  · have h2 : q (blockEnergy cols z) = false := by
      cases hqq : q (blockEnergy cols z)
      · rfl
      · exact absurd (this.mpr hqq) hc
    rw [h2]; simpa using hc

theorem above_mem (G : List ℝ) (b : Option (WithBot ℝ)) (zs : List (List ℝ)) {z : List ℝ}
    (h : z ∈ above G b zs) : z ∈ zs := by
  unfold above at h
  cases b with
  | none => simp at h
  | some b => exact (List.mem_filter.mp h).1

theorem meanRows_loud (cols : ℕ) (h5 : cols ≤ 5) (zs : List (List ℝ)) :
    (meanRows cols zs).map (fun m => gatedLoudness (channelWeights cols) m) =
      if zs = [] then none else some (loud (meanOf (zs.map (blockEnergy cols)))) := by
  unfold meanRows
  split_ifs with h
  · rfl
  · rw [Option.map_some, gatedLoudness_eq cols h5 _ (by simp), energy_mean]

/-- What is returned, in terms of the energies of the blocks. -/
theorem integrate_eq (cols : ℕ) (h5 : cols ≤ 5) (zs : List (List ℝ))
    (hz : ∀ z ∈ zs, z.length = cols) (h0 : ∀ z ∈ zs, 0 ≤ blockEnergy cols z) :
    integrate cols (channelWeights cols) zs =
      if passing (zs.map (blockEnergy cols)) = [] then none
      else some ((-0.691 + 10 * Real.logb 10 (meanOf (kept (zs.map (blockEnergy cols)))) : ℝ) :
        WithBot ℝ) := by
  set e := zs.map (blockEnergy cols) with he
  have hA : (above (channelWeights cols) (some ((-70 : ℝ) : WithBot ℝ)) zs).map (blockEnergy cols) =
      passing e := by
    refine above_map cols h5 zs hz _ _ fun z hz' => ?_
    rw [lt_loud _ (h0 z hz')]
    simp
  have hgate : relativeGate cols (channelWeights cols) zs =
      if passing e = [] then none else some ((loud (meanOf (passing e))).map (· - 10)) := by
    unfold relativeGate
    have := congrArg (Option.map fun l : WithBot ℝ => l.map (· - 10))
      (meanRows_loud cols h5 (above (channelWeights cols) (some ((-70 : ℝ) : WithBot ℝ)) zs))
    rw [Option.map_map] at this
    rw [show (fun m => (gatedLoudness (channelWeights cols) m).map (· - (10 : ℝ))) =
      (fun l : WithBot ℝ => l.map (· - 10)) ∘ fun m => gatedLoudness (channelWeights cols) m from rfl,
      this, hA]
    by_cases hn : above (channelWeights cols) (some ((-70 : ℝ) : WithBot ℝ)) zs = []
    · rw [if_pos hn, if_pos (by rw [← hA, hn]; rfl)]; rfl
    · rw [if_neg hn, if_neg (by rw [← hA]; simpa using hn)]; rfl
  unfold integrate
  rw [meanRows_loud cols h5, hgate]
  by_cases hn : passing e = []
  · rw [if_pos hn, if_pos hn]
    rfl
  · rw [if_neg hn, if_neg hn, Option.map_some]
    have hmean : 0 < meanOf (passing e) := lt_meanOf hn fun v hv => passing_pos hv
    have hB : (above (channelWeights cols)
        (some (max ((loud (meanOf (passing e))).map (· - 10)) ((-70 : ℝ) : WithBot ℝ))) zs).map
          (blockEnergy cols) = kept e := by
      have hk : kept e = e.filter fun v => decide (meanOf (passing e) / 10 < v) &&
          decide ((10 : ℝ) ^ (((-70 : ℝ) + 0.691) / 10) < v) := by
        unfold kept
        generalize meanOf (passing e) = t
        unfold passing
        rw [List.filter_filter]
      rw [hk]
      refine above_map cols h5 zs hz _ _ fun z hz' => ?_
      rw [max_lt_iff, lt_loud _ (h0 z hz'), lt_loud_relative hmean (h0 z hz')]
      simp
    rw [hB, if_neg, loud_pos]
    · exact lt_meanOf (kept_ne_nil hn) fun v hv => kept_pos hv
    · intro h'
      have := kept_ne_nil hn
      rw [← hB, h'] at this
      exact this rfl

/-! ### Blocks -/

theorem ceilDiv_eq (L step : ℕ) (h : 0 < step) :
    ceilDiv L step = ((L + step - 1) / step : ℕ) := by
  obtain ⟨n, hn, h1, h2⟩ := ceilDiv_nat L step h
  rw [hn]
  congr 1
  symm
  rcases n with _ | n
  · have : L = 0 := by omega
    subst this
    exact Nat.div_eq_of_lt (by omega)
  · have h3 := h2 n (by omega)
    refine Nat.div_eq_of_lt_le ?_ ?_
    · rw [Nat.succ_mul]; omega
    · rw [Nat.succ_mul (n + 1)]; omega

/-- Number of blocks taken. -/
def blockCount (rows W step : ℕ) : ℕ := (rows - W + step - 1) / step

theorem lt_blockCount (rows W step : ℕ) (hs : 0 < step) (hW : W ≤ rows) (k : ℕ) :
    k < blockCount rows W step ↔ k * step + W < rows := by
  unfold blockCount
  rw [Nat.lt_iff_add_one_le, Nat.le_div_iff_mul_le hs, Nat.succ_mul]
  omega

theorem framed_ok (x : List ℝ) (W step : ℕ) (hs : 0 < step) (hW : W ≤ x.length) :
    framed x W step false = .ok ((List.range (blockCount x.length W step)).map fun (k : ℕ) =>
      (x.drop (k * step)).take W) := by
  have hcast : ((x.length : ℤ) - W) = ((x.length - W : ℕ) : ℤ) := by omega
  unfold framed numberFrames
  simp only [if_neg hs.ne', Bool.false_eq_true, if_false]
  rw [hcast, ceilDiv_eq _ _ hs, if_neg (not_lt.mpr (Int.natCast_nonneg _))]
  have htd : padTrim x ((x.length : ℤ) + 0).toNat true = x := by
    have h0 : ((x.length : ℤ) + 0).toNat = x.length := by omega
    rw [h0]
    unfold padTrim
    rw [if_pos rfl]
  rw [htd, Int.toNat_natCast]
  refine mapM_ok _ _ _ fun k hk => ?_
  refine frame_ok x W step k ?_
  have := (lt_blockCount x.length W step hs hW k).mp (List.mem_range.mp hk)
  omega

theorem sum_take_drop (x : List ℝ) (k W : ℕ) (h : k + W ≤ x.length) :
    ((x.drop k).take W).sum = ∑ i ∈ Finset.range W, x.getD (k + i) 0 := by
  have h1 : (x.drop k).take W = (List.range W).map fun (i : ℕ) => x.getD (k + i) 0 := by
    refine ext_getD _ _ (by simp; omega) fun j hj => ?_
    have hj' : j < W := by simp at hj; omega
    rw [getD_map_range, if_pos hj', List.getD_eq_getElem?_getD, List.getElem?_take_of_lt hj',
      List.getElem?_drop, ← List.getD_eq_getElem?_getD]
  rw [h1]
  rfl

/-- The blocks of a signal with at least one of them. -/
theorem blocks_ok (A : Mat ℝ) (W step : ℕ) (hc : 1 ≤ A.cols) (hs : 0 < step) (hW : W ≤ A.rows) :
    blocks A W step = .ok ((List.range (blockCount A.rows W step)).map fun (j : ℕ) =>
      (List.range A.cols).map fun (c : ℕ) =>
        (∑ i ∈ Finset.range W, A.val (j * step + i) c ^ 2) / W) := by
  have h1 : ∀ c ∈ List.range A.cols, blockMeans (colOf A c) W step =
      .ok ((List.range (blockCount A.rows W step)).map fun (j : ℕ) =>
        (∑ i ∈ Finset.range W, A.val (j * step + i) c ^ 2) / W) := by
    intro c _
    unfold blockMeans
    rw [framed_ok _ _ _ hs (by simpa [colOf_length] using hW)]
    rw [List.length_map, colOf_length]
    show Except.ok (List.map _ (List.map _ _)) = _
    rw [List.map_map]
    congr 1
    refine List.map_congr_left fun j hj => ?_
    have hj' := (lt_blockCount A.rows W step hs hW j).mp (List.mem_range.mp hj)
    simp only [Function.comp]
    rw [sum_take_drop _ _ _ (by rw [List.length_map, colOf_length]; omega)]
    congr 1
    refine Finset.sum_congr rfl fun i hi => ?_
    have hi' := Finset.mem_range.mp hi
    rw [List.getD_eq_getElem _ _ (by rw [List.length_map, colOf_length]; omega), List.getElem_map,
      ← List.getD_eq_getElem _ 0 (by rw [colOf_length]; omega), colOf_getD, if_pos (by omega)]
  unfold blocks
  rw [mapM_ok _ _ _ h1]
  simp only
  congr 1
  have hlen : ∀ f : ℕ → List ℝ, (((List.range A.cols).map f).getD 0 []) = f 0 := by
    intro f
    rw [List.getD_eq_getElem _ _ (by rw [List.length_map, List.length_range]; omega)]
    simp
  rw [hlen, List.length_map, List.length_range]
  refine List.map_congr_left fun j hj => ?_
  rw [List.map_map]
  refine List.map_congr_left fun c _ => ?_
  simp only [Function.comp]
  rw [getD_map_range, if_pos (List.mem_range.mp hj)]

end Verif.Loudness
