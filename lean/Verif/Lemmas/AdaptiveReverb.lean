import Verif.Model.AdaptiveReverb
import Verif.Props.C62
import Mathlib.Algebra.Order.Chebyshev

/-! # Lemmas on fits and correlations of decay curves -/

namespace Verif.Room

open Finset

/-- Sum of squared deviations from the mean. -/
noncomputable def spread (i1 i2 : ℕ) (f : ℕ → ℝ) : ℝ := ∑ i ∈ Ico i1 i2, (f i - mean i1 i2 f) ^ 2

/-- Sum of products of deviations. -/
noncomputable def coSpread (i1 i2 : ℕ) (f g : ℕ → ℝ) : ℝ :=
  ∑ i ∈ Ico i1 i2, (f i - mean i1 i2 f) * (g i - mean i1 i2 g)

theorem spread_nonneg (i1 i2 : ℕ) (f : ℕ → ℝ) : 0 ≤ spread i1 i2 f :=
  sum_nonneg fun _ _ => sq_nonneg _

theorem pearson_eq (i1 i2 : ℕ) (t y : ℕ → ℝ) (h : i1 + 2 ≤ i2) (ht : spread i1 i2 t ≠ 0)
    (hy : spread i1 i2 y ≠ 0) :
    pearson i1 i2 t y =
      some (coSpread i1 i2 t y / (Real.sqrt (spread i1 i2 t) * Real.sqrt (spread i1 i2 y))) := by
  unfold pearson
  dsimp only
  rw [if_neg]
  · rfl
  · rintro (h' | h' | h')
    · omega
    · exact ht h'
    · exact hy h'

theorem pearson_some (i1 i2 : ℕ) (t y : ℕ → ℝ) (r : ℝ) (h : pearson i1 i2 t y = some r) :
    i1 + 2 ≤ i2 ∧ 0 < spread i1 i2 t ∧ 0 < spread i1 i2 y ∧
      r = coSpread i1 i2 t y / (Real.sqrt (spread i1 i2 t) * Real.sqrt (spread i1 i2 y)) := by
  unfold pearson at h
  dsimp only at h
  split at h
  · cases h
  · rename_i hc
    simp only [not_or] at hc
    obtain ⟨h1, h2, h3⟩ := hc
    refine ⟨by omega, (spread_nonneg _ _ _).lt_of_ne' h2, (spread_nonneg _ _ _).lt_of_ne' h3, ?_⟩
    exact (Option.some.inj h).symm

theorem coSpread_sq_le (i1 i2 : ℕ) (t y : ℕ → ℝ) :
    coSpread i1 i2 t y ^ 2 ≤ spread i1 i2 t * spread i1 i2 y :=
  sum_mul_sq_le_sq_mul_sq _ _ _

theorem abs_pearson_le (i1 i2 : ℕ) (t y : ℕ → ℝ) (r : ℝ) (h : pearson i1 i2 t y = some r) :
    -1 ≤ r ∧ r ≤ 1 := by
  obtain ⟨-, ht, hy, rfl⟩ := pearson_some _ _ _ _ _ h
  have hp : 0 < Real.sqrt (spread i1 i2 t) * Real.sqrt (spread i1 i2 y) :=
    mul_pos (Real.sqrt_pos.mpr ht) (Real.sqrt_pos.mpr hy)
  have hb : |coSpread i1 i2 t y| ≤ Real.sqrt (spread i1 i2 t) * Real.sqrt (spread i1 i2 y) := by
    rw [← Real.sqrt_mul ht.le]
    exact Real.abs_le_sqrt (coSpread_sq_le _ _ _ _)
  rw [← abs_le, abs_div, abs_of_pos hp]
  exact (div_le_one hp).mpr hb

/-- The mean deviates by nothing on average. -/
theorem sum_dev (i1 i2 : ℕ) (h : i1 < i2) (f : ℕ → ℝ) :
    ∑ i ∈ Ico i1 i2, (f i - mean i1 i2 f) = 0 := by
  rw [sum_sub_distrib, sum_const, Nat.card_Ico, nsmul_eq_mul]
  unfold mean
  have hc : ((i2 - i1 : ℕ) : ℝ) ≠ 0 := by
    have : 0 < i2 - i1 := by omega
    exact_mod_cast this.ne'
  field_simp
  ring

theorem coSpread_nonpos (i1 i2 : ℕ) (h : i1 < i2) (t y : ℕ → ℝ)
    (ht : ∀ i j, i ≤ j → t i ≤ t j)
    (hy : ∀ i j, i1 ≤ i → i ≤ j → j < i2 → y j ≤ y i) : coSpread i1 i2 t y ≤ 0 := by
  have hc : (0 : ℝ) < ((i2 - i1 : ℕ) : ℝ) := by
    have : 0 < i2 - i1 := by omega
    exact_mod_cast this
  have ha : AntivaryOn (fun i => t i - mean i1 i2 t) (fun i => y i - mean i1 i2 y)
      (Ico i1 i2 : Set ℕ) := by
    intro i hi j hj hij
    simp only [coe_Ico, Set.mem_Ico] at hi hj
    show t j - mean i1 i2 t ≤ t i - mean i1 i2 t
    have : j ≤ i := by
      by_contra hlt
      have := hy i j hi.1 (by omega) hj.2
      simp only at hij
      linarith
    have := ht j i this
    linarith
  have hch := AntivaryOn.card_mul_sum_le_sum_mul_sum ha
  rw [sum_dev i1 i2 h t, zero_mul, Nat.card_Ico] at hch
  unfold coSpread
  by_contra hpos
  have := mul_pos hc (not_le.mp hpos)
  linarith

/-- Falling data has no positive correlation with time. -/
theorem pearson_nonpos (i1 i2 : ℕ) (t y : ℕ → ℝ) (r : ℝ) (h : pearson i1 i2 t y = some r)
    (ht : ∀ i j, i ≤ j → t i ≤ t j)
    (hy : ∀ i j, i1 ≤ i → i ≤ j → j < i2 → y j ≤ y i) : r ≤ 0 := by
  obtain ⟨hn, h1, h2, rfl⟩ := pearson_some _ _ _ _ _ h
  exact div_nonpos_of_nonpos_of_nonneg (coSpread_nonpos _ _ (by omega) _ _ ht hy)
    (mul_nonneg (Real.sqrt_nonneg _) (Real.sqrt_nonneg _))

/-- A correlation of -1 means a falling line through all points. -/
theorem line_of_pearson (i1 i2 : ℕ) (t y : ℕ → ℝ) (h : pearson i1 i2 t y = some (-1)) :
    ∃ a b, a < 0 ∧ ∀ i ∈ Ico i1 i2, y i = a * t i + b := by
  obtain ⟨hn, ht, hy, hr⟩ := pearson_some _ _ _ _ _ h
  have hp : 0 < Real.sqrt (spread i1 i2 t) * Real.sqrt (spread i1 i2 y) :=
    mul_pos (Real.sqrt_pos.mpr ht) (Real.sqrt_pos.mpr hy)
  have hco : coSpread i1 i2 t y = -(Real.sqrt (spread i1 i2 t) * Real.sqrt (spread i1 i2 y)) := by
    have := (eq_div_iff hp.ne').mp hr
    linarith
  have hsq : coSpread i1 i2 t y ^ 2 = spread i1 i2 t * spread i1 i2 y := by
    rw [hco, neg_sq, mul_pow, Real.sq_sqrt ht.le, Real.sq_sqrt hy.le]
  set a := coSpread i1 i2 t y / spread i1 i2 t with ha
  have hzero : ∑ i ∈ Ico i1 i2, ((y i - mean i1 i2 y) - a * (t i - mean i1 i2 t)) ^ 2 = 0 := by
    have e : ∑ i ∈ Ico i1 i2, ((y i - mean i1 i2 y) - a * (t i - mean i1 i2 t)) ^ 2 =
        spread i1 i2 y - 2 * a * coSpread i1 i2 t y + a ^ 2 * spread i1 i2 t := by
      unfold spread coSpread
      rw [mul_sum, mul_sum, ← sum_sub_distrib, ← sum_add_distrib]
      exact sum_congr rfl fun i _ => by ring
    rw [e, ha]
    field_simp
    rw [hsq]
    ring
  refine ⟨a, mean i1 i2 y - a * mean i1 i2 t, ?_, fun i hi => ?_⟩
  · rw [ha, hco]
    exact div_neg_of_neg_of_pos (by linarith) ht
  · have := (sum_eq_zero_iff_of_nonneg fun n _ => sq_nonneg _).mp hzero i hi
    have := pow_eq_zero_iff two_ne_zero |>.mp this
    linarith

theorem mean_congr (i1 i2 : ℕ) (f g : ℕ → ℝ) (h : ∀ i ∈ Ico i1 i2, f i = g i) :
    mean i1 i2 f = mean i1 i2 g := by
  unfold mean
  rw [sum_congr rfl h]

/-- Fit and correlation of points on a falling line. -/
theorem line_fit (i1 i2 : ℕ) (t y : ℕ → ℝ) (a b : ℝ) (ha : a < 0)
    (hy : ∀ i ∈ Ico i1 i2, y i = a * t i + b) (i j : ℕ) (hi : i ∈ Ico i1 i2) (hj : j ∈ Ico i1 i2)
    (hij : t i ≠ t j) :
    polyfitLine i1 i2 t y = some (a, b) ∧ pearson i1 i2 t y = some (-1) := by
  have hv := variance_ne_zero i1 i2 t i j hi hj hij
  have hlt : i1 + 2 ≤ i2 := by
    have h1 := mem_Ico.mp hi
    have h2 := mem_Ico.mp hj
    have : i ≠ j := fun h => hij (by rw [h])
    omega
  have hm : mean i1 i2 y = a * mean i1 i2 t + b := by
    rw [mean_congr _ _ _ _ hy, mean_affine i1 i2 (by omega)]
  have hdev : ∀ i ∈ Ico i1 i2, y i - mean i1 i2 y = a * (t i - mean i1 i2 t) := by
    intro i hi
    rw [hy i hi, hm]
    ring
  have hco : coSpread i1 i2 t y = a * spread i1 i2 t := by
    unfold coSpread spread
    rw [mul_sum]
    exact sum_congr rfl fun i hi => by rw [hdev i hi]; ring
  have hsp : spread i1 i2 y = a ^ 2 * spread i1 i2 t := by
    unfold spread
    rw [mul_sum]
    exact sum_congr rfl fun i hi => by rw [hdev i hi]; ring
  have hpos : 0 < spread i1 i2 t := (spread_nonneg _ _ _).lt_of_ne' hv
  constructor
  · unfold polyfitLine polyfitSlope
    dsimp only
    rw [if_neg hv, show (∑ i ∈ Ico i1 i2, (t i - mean i1 i2 t) * (y i - mean i1 i2 y)) =
      a * spread i1 i2 t from hco]
    have : a * spread i1 i2 t / ∑ i ∈ Ico i1 i2, (t i - mean i1 i2 t) ^ 2 = a :=
      mul_div_cancel_right₀ a hv
    rw [this, Option.map_some, hm]
    simp
  · rw [pearson_eq i1 i2 t y hlt hpos.ne' (by rw [hsp]; exact mul_ne_zero (pow_ne_zero _ ha.ne) hpos.ne'),
      hco, hsp, Real.sqrt_mul (sq_nonneg a), Real.sqrt_sq_eq_abs, abs_of_neg ha]
    congr 1
    have h1 := Real.sqrt_pos.mpr hpos
    rw [show Real.sqrt (spread i1 i2 t) * (-a * Real.sqrt (spread i1 i2 t)) =
      -a * (Real.sqrt (spread i1 i2 t) * Real.sqrt (spread i1 i2 t)) from by ring,
      Real.mul_self_sqrt hpos.le, div_eq_iff (mul_ne_zero (by linarith) hpos.ne')]
    ring

/-! ### Choice of the end -/

theorem foldl_min (l : List (ℝ × ℝ)) : ∀ p : ℝ × ℝ,
    (l.foldl (fun best q => if q.2 < best.2 then q else best) p) ∈ p :: l ∧
    ∀ q ∈ p :: l, (l.foldl (fun best q => if q.2 < best.2 then q else best) p).2 ≤ q.2 := by
  induction l with
  | nil => intro p; simp
  | cons a l ih =>
    intro p
    rw [List.foldl_cons]
    obtain ⟨h1, h2⟩ := ih (if a.2 < p.2 then a else p)
    by_cases hc : a.2 < p.2
    · rw [if_pos hc] at h1 h2 ⊢
      refine ⟨List.mem_cons_of_mem _ h1, fun q hq => ?_⟩
      rcases List.mem_cons.mp hq with rfl | hq
      · exact (h2 a (by simp)).trans hc.le
      · exact h2 q hq
    · rw [if_neg hc] at h1 h2 ⊢
      refine ⟨?_, fun q hq => ?_⟩
      · rcases List.mem_cons.mp h1 with h1 | h1
        · rw [h1]; simp
        · exact List.mem_cons_of_mem _ (List.mem_cons_of_mem _ h1)
      · rcases List.mem_cons.mp hq with rfl | hq
        · exact h2 q (by simp)
        · rcases List.mem_cons.mp hq with rfl | hq
          · exact (h2 p (by simp)).trans (not_lt.mp hc)
          · exact h2 q (by simp [hq])

theorem foldl_const (l : List (ℝ × ℝ)) (p : ℝ × ℝ) (h : ∀ q ∈ l, p.2 ≤ q.2) :
    (l.foldl (fun best q => if q.2 < best.2 then q else best) p) = p := by
  induction l with
  | nil => rfl
  | cons a l ih =>
    rw [List.foldl_cons, if_neg (not_lt.mpr (h a (by simp)))]
    exact ih fun q hq => h q (by simp [hq])

theorem mapM_some_iff {α β : Type} (f : α → Option β) : ∀ (l : List α) (l' : List β),
    l.mapM f = some l' → l'.length = l.length ∧
      (∀ x ∈ l, ∃ y ∈ l', f x = some y) ∧ ∀ y ∈ l', ∃ x ∈ l, f x = some y
  | [], l', h => by
    cases h
    simp
  | a :: l, l', h => by
    rw [List.mapM_cons] at h
    cases ha : f a with
    | none => rw [ha] at h; cases h
    | some b =>
      rw [ha] at h
      cases hl : l.mapM f with
      | none => rw [hl] at h; cases h
      | some l'' =>
        rw [hl] at h
        cases h
        obtain ⟨h1, h2, h3⟩ := mapM_some_iff f l l'' hl
        refine ⟨by simp [h1], fun x hx => ?_, fun y hy => ?_⟩
        · rcases List.mem_cons.mp hx with rfl | hx
          · exact ⟨b, by simp, ha⟩
          · obtain ⟨y, hy, e⟩ := h2 x hx
            exact ⟨y, by simp [hy], e⟩
        · rcases List.mem_cons.mp hy with rfl | hy
          · exact ⟨a, by simp, ha⟩
          · obtain ⟨x, hx, e⟩ := h3 y hy
            exact ⟨x, by simp [hx], e⟩

theorem mapM_some_of {α β : Type} (f : α → Option β) (g : α → β) :
    ∀ l : List α, (∀ a ∈ l, f a = some (g a)) → l.mapM f = some (l.map g)
  | [], _ => rfl
  | a :: l, h => by
    rw [List.mapM_cons, h a (by simp), mapM_some_of f g l fun b hb => h b (by simp [hb])]
    rfl

/-- What the choice of the end level returns. -/
theorem bestEnd_some (L : ℕ) (t edc : ℕ → ℝ) (start stop r : ℝ)
    (h : bestEnd L t edc start = some (stop, r)) :
    (∃ k : ℕ, k < 40 ∧ stop = start - 20 - k) ∧ decayCorr L t edc start stop = some r ∧
    ∀ k : ℕ, k < 40 → ∃ q, decayCorr L t edc start (start - 20 - k) = some q ∧ r ≤ q := by
  unfold bestEnd at h
  split at h
  · cases h
  · rename_i l hl
    obtain ⟨hlen, h1, h2⟩ := mapM_some_iff _ _ _ hl
    cases l with
    | nil => cases h
    | cons p l =>
      obtain ⟨hm, hmin⟩ := foldl_min l p
      unfold firstMin at h
      rw [Option.some.inj h] at hm hmin
      refine ⟨?_, ?_, fun k hk => ?_⟩
      · obtain ⟨x, hx, e⟩ := h2 _ hm
        obtain ⟨k, hk, rfl⟩ := List.mem_map.mp hx
        refine ⟨k, List.mem_range.mp hk, ?_⟩
        obtain ⟨q, -, e⟩ := Option.map_eq_some_iff.mp e
        exact (congrArg Prod.fst e).symm
      · obtain ⟨x, hx, e⟩ := h2 _ hm
        obtain ⟨q, e1, e2⟩ := Option.map_eq_some_iff.mp e
        cases e2
        exact e1
      · obtain ⟨y, hy, e⟩ := h1 (start - 20 - k) (List.mem_map.mpr ⟨k, List.mem_range.mpr hk, rfl⟩)
        obtain ⟨q, e1, e2⟩ := Option.map_eq_some_iff.mp e
        refine ⟨q, e1, ?_⟩
        have := hmin y hy
        rw [← e2] at this
        exact this

/-- If no end is better than the first one, the first one is taken. -/
theorem bestEnd_first (L : ℕ) (t edc : ℕ → ℝ) (start : ℝ) (f : ℕ → ℝ)
    (h : ∀ k : ℕ, k < 40 → decayCorr L t edc start (start - 20 - k) = some (f k))
    (hf : ∀ k : ℕ, k < 40 → f 0 ≤ f k) :
    bestEnd L t edc start = some (start - 20, f 0) := by
  have hl : ((endLevels start).mapM fun v => (decayCorr L t edc start v).map fun r => (v, r)) =
      some ((List.range 40).map fun (k : ℕ) => (start - 20 - k, f k)) := by
    unfold endLevels
    generalize hR : List.range 40 = R
    have hR' : ∀ k ∈ R, k < 40 := fun k hk => List.mem_range.mp (hR ▸ hk)
    clear hR
    induction R with
    | nil => rfl
    | cons k R ih =>
      rw [List.map_cons, List.mapM_cons, h k (hR' k (by simp)), ih fun j hj => hR' j (by simp [hj])]
      rfl
  unfold bestEnd
  rw [hl]
  show firstMin ((List.range (39 + 1)).map fun (k : ℕ) => (start - 20 - k, f k)) = _
  rw [List.range_succ_eq_map, List.map_cons]
  unfold firstMin
  simp only
  rw [foldl_const]
  · simp
  · intro q hq
    rw [List.map_map] at hq
    obtain ⟨k, hk, rfl⟩ := List.mem_map.mp hq
    exact hf _ (by have := List.mem_range.mp hk; simp; omega)

end Verif.Room
