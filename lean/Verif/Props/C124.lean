import Verif.Model.RoomModes
import Verif.Props.C45
import Mathlib.Algebra.Order.BigOperators.Ring.Finset
import Mathlib.Analysis.Complex.Basic
import Mathlib.Tactic.IntervalCases

/-!
# C124: room modes from measured responses
-/

namespace Verif.RoomModes

open Finset

/-! ### The largest singular value -/

/-- Energy of all channels but the first one. -/
noncomputable def others (n : ℕ) (h : ℕ → ℂ) : ℝ := ∑ i ∈ Ico 1 n, ‖h i‖ ^ 2

theorem sum_first {M : Type} [AddCommMonoid M] (n : ℕ) (hn : 0 < n) (f : ℕ → M) :
    ∑ i ∈ range n, f i = f 0 + ∑ i ∈ Ico 1 n, f i := by
  rw [range_eq_Ico, sum_eq_sum_Ico_succ_bot hn]

theorem others_nonneg (n : ℕ) (h : ℕ → ℂ) : 0 ≤ others n h := sum_nonneg fun _ _ => sq_nonneg _

theorem image_sq (n : ℕ) (hn : 0 < n) (h x : ℕ → ℂ) :
    ∑ i ∈ range n, ‖∑ j ∈ range n, transferMatrix h i j * x j‖ ^ 2 =
      ‖h 0 * x 0 + ∑ j ∈ Ico 1 n, h j * x j‖ ^ 2 + others n h * ‖x 0‖ ^ 2 := by
  rw [sum_first n hn]
  congr 1
  · rw [sum_first n hn]
    simp [transferMatrix]
  · unfold others
    rw [sum_mul]
    refine sum_congr rfl fun i hi => ?_
    have hi0 : i ≠ 0 := by
      have := (mem_Ico.1 hi).1
      omega
    rw [sum_first n hn, sum_eq_zero (s := Ico 1 n), add_zero]
    · simp [transferMatrix, hi0, mul_pow]
    · intro j hj
      have hj0 : j ≠ 0 := by
        have := (mem_Ico.1 hj).1
        omega
      simp [transferMatrix, hi0, hj0]

theorem cauchy (n : ℕ) (h x : ℕ → ℂ) :
    ‖∑ j ∈ Ico 1 n, h j * x j‖ ^ 2 ≤ others n h * others n x := by
  have h1 : ‖∑ j ∈ Ico 1 n, h j * x j‖ ≤ ∑ j ∈ Ico 1 n, ‖h j‖ * ‖x j‖ := by
    refine (norm_sum_le _ _).trans (le_of_eq ?_)
    exact sum_congr rfl fun j _ => norm_mul _ _
  have h2 := sum_mul_sq_le_sq_mul_sq (Ico 1 n) (fun j => ‖h j‖) (fun j => ‖x j‖)
  calc _ ≤ (∑ j ∈ Ico 1 n, ‖h j‖ * ‖x j‖) ^ 2 := by gcongr
    _ ≤ _ := h2

/-- Root of `s^2 = p s + w`. -/
theorem root_sq (p w : ℝ) (hw : 0 ≤ w) :
    ((p + √(p ^ 2 + 4 * w)) / 2) ^ 2 = p * ((p + √(p ^ 2 + 4 * w)) / 2) + w := by
  have := Real.sq_sqrt (show 0 ≤ p ^ 2 + 4 * w by positivity)
  nlinarith

theorem largestSV_eq (n : ℕ) (hn : 0 < n) (h : ℕ → ℂ) :
    largestSV n (transferMatrix h) = (‖h 0‖ + √(‖h 0‖ ^ 2 + 4 * others n h)) / 2 := by
  obtain ⟨s, hs⟩ : ∃ s, s = (‖h 0‖ + √(‖h 0‖ ^ 2 + 4 * others n h)) / 2 := ⟨_, rfl⟩
  have hp := norm_nonneg (h 0)
  have hw := others_nonneg n h
  have hs2 : s ^ 2 = ‖h 0‖ * s + others n h := by rw [hs]; exact root_sq _ _ hw
  have hsp : ‖h 0‖ ≤ s := by
    rw [hs]
    have : ‖h 0‖ ≤ √(‖h 0‖ ^ 2 + 4 * others n h) := Real.le_sqrt_of_sq_le (by linarith)
    linarith
  rw [← hs]
  have hs0 : 0 ≤ s := hp.trans hsp
  -- upper bound
  have up : ∀ x : ℕ → ℂ, norm2 n x ≤ 1 → norm2 n (fun i => ∑ j ∈ range n, transferMatrix h i j * x j) ≤ s := by
    intro x hx
    unfold norm2 at hx ⊢
    rw [Real.sqrt_le_iff] at hx
    replace hx := hx.2
    rw [one_pow] at hx
    rw [image_sq n hn]
    refine Real.sqrt_le_iff.2 ⟨hs0, ?_⟩
    rw [sum_first n hn] at hx
    change ‖x 0‖ ^ 2 + others n x ≤ 1 at hx
    have hc := cauchy n h x
    have ht : ‖h 0 * x 0 + ∑ j ∈ Ico 1 n, h j * x j‖ ≤ ‖h 0‖ * ‖x 0‖ + ‖∑ j ∈ Ico 1 n, h j * x j‖ :=
      (norm_add_le _ _).trans (by rw [norm_mul])
    have ht2 : ‖h 0 * x 0 + ∑ j ∈ Ico 1 n, h j * x j‖ ^ 2 ≤
        (‖h 0‖ * ‖x 0‖ + ‖∑ j ∈ Ico 1 n, h j * x j‖) ^ 2 := by gcongr
    have hr0 := norm_nonneg (∑ j ∈ Ico 1 n, h j * x j)
    generalize ‖∑ j ∈ Ico 1 n, h j * x j‖ = r at *
    have hb0 := others_nonneg n x
    generalize others n x = b at *
    generalize ‖h 0 * x 0 + ∑ j ∈ Ico 1 n, h j * x j‖ = q at *
    have ha0 := norm_nonneg (x 0)
    generalize ‖x 0‖ = a at *
    generalize ‖h 0‖ = p at *
    generalize others n h = w at *
    have hbs : (p * a + r) ^ 2 + w * a ^ 2 ≤ s ^ 2 * (a ^ 2 + b) := by
      rcases hs0.eq_or_lt with h0 | h0
      · have hp0 : p = 0 := by linarith
        have hw0 : w = 0 := by rw [← h0] at hs2; nlinarith
        subst hp0 hw0
        rw [← h0]
        nlinarith
      · have hr : r ≤ √w * √b := by
          rw [← Real.sqrt_mul hw]
          exact Real.le_sqrt_of_sq_le hc
        have hv := Real.sq_sqrt hw
        have hu := Real.sq_sqrt hb0
        have h1 : 0 ≤ s * ((s - p) * a ^ 2 + s * b - 2 * a * r) := by
          have e1 : s * ((s - p) * a ^ 2 + s * b - 2 * a * r) = w * a ^ 2 + s ^ 2 * b - 2 * (s * a) * r := by
            have : s * (s - p) = w := by linarith
            linear_combination a ^ 2 * this
          have e2 : 2 * (s * a) * r ≤ 2 * (s * a) * (√w * √b) := by gcongr
          have e3 : w * a ^ 2 + s ^ 2 * b - 2 * (s * a) * (√w * √b) = (√w * a - s * √b) ^ 2 := by
            linear_combination -a ^ 2 * hv - s ^ 2 * hu
          rw [e1]
          nlinarith [sq_nonneg (√w * a - s * √b)]
        have h2 : 0 ≤ (s - p) * a ^ 2 + s * b - 2 * a * r := by
          by_contra hcon
          nlinarith
        have h3 : 0 ≤ p * ((s - p) * a ^ 2 + s * b - 2 * a * r) := mul_nonneg hp h2
        have e4 : s ^ 2 * (a ^ 2 + b) - ((p * a + r) ^ 2 + w * a ^ 2) =
            p * ((s - p) * a ^ 2 + s * b - 2 * a * r) + (w * b - r ^ 2) := by
          linear_combination (a ^ 2 + b) * hs2
        linarith
    nlinarith [sq_nonneg s]
  -- attained
  obtain ⟨x, hx1, hx2⟩ : ∃ x : ℕ → ℂ, norm2 n x ≤ 1 ∧
      s ≤ norm2 n (fun i => ∑ j ∈ range n, transferMatrix h i j * x j) := by
    rcases hs0.eq_or_lt with h0 | h0
    · exact ⟨fun _ => 0, by simp [norm2], by rw [← h0]; exact Real.sqrt_nonneg _⟩
    obtain ⟨u, hu1, hu2⟩ : ∃ u : ℂ, ‖u‖ = 1 ∧ h 0 * u = (‖h 0‖ : ℂ) := by
      by_cases hz : h 0 = 0
      · exact ⟨1, by simp, by simp [hz]⟩
      · have hz' : (‖h 0‖ : ℂ) ≠ 0 := by simpa using hz
        refine ⟨(‖h 0‖ : ℂ) / h 0, ?_, by field_simp⟩
        rw [norm_div, Complex.norm_real, norm_norm, div_self (by simpa using hz)]
    have hD : 0 < s ^ 2 + others n h := by positivity
    obtain ⟨c, hc⟩ : ∃ c : ℝ, c = 1 / √(s ^ 2 + others n h) := ⟨_, rfl⟩
    have hc0 : 0 < c := by rw [hc]; positivity
    have hc2 : c ^ 2 * (s ^ 2 + others n h) = 1 := by
      rw [hc, div_pow, Real.sq_sqrt hD.le, one_pow]
      field_simp
    obtain ⟨x, hx⟩ : ∃ x : ℕ → ℂ, x = fun j => (c : ℂ) * (if j = 0 then s * u else starRingEnd ℂ (h j)) :=
      ⟨_, rfl⟩
    have hx0 : x 0 = c * (s * u) := by rw [hx]; simp
    have hxj : ∀ j ∈ Ico 1 n, x j = c * starRingEnd ℂ (h j) := by
      intro j hj
      have hj0 : j ≠ 0 := by
        have := (mem_Ico.1 hj).1
        omega
      rw [hx]
      simp [hj0]
    have hn0 : ‖x 0‖ = c * s := by
      rw [hx0, norm_mul, norm_mul, hu1, mul_one, Complex.norm_real, Complex.norm_real,
        Real.norm_of_nonneg hc0.le, Real.norm_of_nonneg h0.le]
    have hoth : others n x = c ^ 2 * others n h := by
      unfold others
      rw [mul_sum]
      refine sum_congr rfl fun j hj => ?_
      rw [hxj j hj, norm_mul, Complex.norm_real, Real.norm_of_nonneg hc0.le, RCLike.norm_conj, mul_pow]
    have hdot : ∑ j ∈ Ico 1 n, h j * x j = ((c * others n h : ℝ) : ℂ) := by
      unfold others
      rw [Complex.ofReal_mul, Complex.ofReal_sum, mul_sum]
      refine sum_congr rfl fun j hj => ?_
      rw [hxj j hj]
      have := Complex.mul_conj' (h j)
      push_cast
      linear_combination (c : ℂ) * this
    refine ⟨x, ?_, ?_⟩
    · unfold norm2
      rw [sum_first n hn, hn0]
      change √((c * s) ^ 2 + others n x) ≤ 1
      rw [hoth, show (c * s) ^ 2 + c ^ 2 * others n h = 1 by linarith [mul_pow c s 2], Real.sqrt_one]
    · unfold norm2
      rw [image_sq n hn, hdot, hn0, hx0]
      have e : h 0 * (c * (s * u)) + ((c * others n h : ℝ) : ℂ) = ((c * s ^ 2 : ℝ) : ℂ) := by
        have hs2' : ((s ^ 2 : ℝ) : ℂ) = ((‖h 0‖ * s + others n h : ℝ) : ℂ) := by rw [hs2]
        push_cast at hs2' ⊢
        linear_combination (c * s : ℂ) * hu2 - (c : ℂ) * hs2'
      rw [e, Complex.norm_real, Real.norm_of_nonneg (by positivity)]
      refine Real.le_sqrt_of_sq_le (le_of_eq ?_)
      linear_combination -s ^ 2 * hc2
  unfold largestSV
  refine le_antisymm (csSup_le ⟨_, x, hx1, rfl⟩ ?_) ?_
  · rintro r ⟨y, hy, rfl⟩
    exact up y hy
  · refine hx2.trans (le_csSup ⟨s, ?_⟩ ⟨x, hx1, rfl⟩)
    rintro r ⟨y, hy, rfl⟩
    exact up y hy

/-! ### Peaks -/

theorem select_inv (d : ℕ) (y : ℕ → ℝ) (L : List ℕ) : ∀ acc : List ℕ,
    acc.Pairwise (fun p q => q + d ≤ p ∨ p + d ≤ q) → (∀ q ∈ acc, ∀ p ∈ L, y p ≤ y q) →
    L.Pairwise (fun p q => y q ≤ y p) →
    let R := L.foldl (fun kept p => if ∀ q ∈ kept, q + d ≤ p ∨ p + d ≤ q then p :: kept else kept) acc
    (∀ p ∈ acc, p ∈ R) ∧ (∀ p ∈ R, p ∈ acc ∨ p ∈ L) ∧ R.Pairwise (fun p q => q + d ≤ p ∨ p + d ≤ q) ∧
      ∀ p ∈ L, p ∈ R ∨ ∃ q ∈ R, ¬ (q + d ≤ p ∨ p + d ≤ q) ∧ y p ≤ y q := by
  induction L with
  | nil =>
    intro acc ha _ _
    exact ⟨fun p hp => hp, fun p hp => .inl hp, ha, fun p hp => absurd hp (by simp)⟩
  | cons a L ih =>
    intro acc ha hacc hL
    obtain ⟨hL1, hL2⟩ := List.pairwise_cons.1 hL
    simp only [List.foldl_cons]
    by_cases hc : ∀ q ∈ acc, q + d ≤ a ∨ a + d ≤ q
    · rw [if_pos hc]
      obtain ⟨r1, r2, r3, r4⟩ := ih (a :: acc) (List.pairwise_cons.2 ⟨hc, ha⟩) (by
        intro q hq p hp
        rcases List.mem_cons.1 hq with rfl | hq
        · exact hL1 p hp
        · exact hacc q hq p (List.mem_cons_of_mem _ hp)) hL2
      refine ⟨fun p hp => r1 p (List.mem_cons_of_mem _ hp), fun p hp => ?_, r3, fun p hp => ?_⟩
      · rcases r2 p hp with h | h
        · rcases List.mem_cons.1 h with rfl | h
          · exact .inr List.mem_cons_self
          · exact .inl h
        · exact .inr (List.mem_cons_of_mem _ h)
      · rcases List.mem_cons.1 hp with rfl | hp
        · exact .inl (r1 _ List.mem_cons_self)
        · exact r4 p hp
    · rw [if_neg hc]
      obtain ⟨r1, r2, r3, r4⟩ := ih acc ha
        (fun q hq p hp => hacc q hq p (List.mem_cons_of_mem _ hp)) hL2
      refine ⟨r1, fun p hp => ?_, r3, fun p hp => ?_⟩
      · exact (r2 p hp).imp_right (List.mem_cons_of_mem _)
      · rcases List.mem_cons.1 hp with rfl | hp
        · push Not at hc
          obtain ⟨q, hq, h1, h2⟩ := hc
          exact .inr ⟨q, r1 q hq, by omega, hacc q hq p List.mem_cons_self⟩
        · exact r4 p hp

theorem findPeaks_spec (N : ℕ) (y : ℕ → ℝ) (d : ℕ) (prom : Option ℝ) :
    (findPeaks N y d prom).Pairwise (· < ·) ∧
    (∀ i ∈ findPeaks N y d prom, LocalMax N y i ∧ ∀ p ∈ prom, p ≤ prominence N y i) ∧
    (∀ i ∈ findPeaks N y d prom, ∀ j ∈ findPeaks N y d prom, i < j → i + d ≤ j) ∧
    (prom = none → ∀ i, LocalMax N y i → i ∈ findPeaks N y d prom ∨
      ∃ j ∈ findPeaks N y d prom, ¬ (j + d ≤ i ∨ i + d ≤ j) ∧ y i ≤ y j) := by
  classical
  unfold findPeaks
  obtain ⟨L, hLdef⟩ : ∃ L, L = (((List.range N).filter fun i => decide (LocalMax N y i)).reverse.mergeSort
      fun i j => decide (y j ≤ y i)) := ⟨_, rfl⟩
  have hL : ∀ i, i ∈ L ↔ i < N ∧ LocalMax N y i := by
    intro i
    rw [hLdef]
    simp
  have hsort : L.Pairwise (fun p q => y q ≤ y p) := by
    have := List.pairwise_mergeSort (le := fun i j => decide (y j ≤ y i))
      (fun a b c h1 h2 => by
        simp only [decide_eq_true_eq] at *
        exact h2.trans h1)
      (fun a b => by simpa using le_total (y b) (y a))
      ((List.range N).filter fun i => decide (LocalMax N y i)).reverse
    rw [← hLdef] at this
    simpa using this
  obtain ⟨-, h2, h3, h4⟩ := select_inv d y L [] List.Pairwise.nil (by simp) hsort
  change _ ∧ _ ∧ _ ∧ _
  simp only
  rw [← hLdef]
  change ∀ p ∈ select d L, _ at h2
  change (select d L).Pairwise _ at h3
  change ∀ p ∈ L, p ∈ select d L ∨ ∃ q ∈ select d L, _ at h4
  have hlt : ∀ i ∈ select d L, i < N ∧ LocalMax N y i := by
    intro i hi
    rcases h2 i hi with h | h
    · simp at h
    · exact (hL i).1 h
  refine ⟨?_, ?_, ?_, ?_⟩
  · exact List.pairwise_lt_range.filter _
  · intro i hi
    rw [List.mem_filter, decide_eq_true_eq] at hi
    exact ⟨(hlt i hi.2.1).2, hi.2.2⟩
  · intro i hi j hj hij
    rw [List.mem_filter, decide_eq_true_eq] at hi hj
    have : Std.Symm (fun p q : ℕ => q + d ≤ p ∨ p + d ≤ q) := ⟨fun x y h => h.symm⟩
    have := h3.forall hi.2.1 hj.2.1 (by omega)
    omega
  · intro hp i hi
    have hiN : i < N := by
      obtain ⟨l, r, -, h, h', -⟩ := hi
      omega
    have hmem : ∀ j ∈ select d L, j ∈ (List.range N).filter fun i =>
        decide (i ∈ select d L ∧ ∀ p ∈ prom, p ≤ prominence N y i) := by
      intro j hj
      rw [List.mem_filter, decide_eq_true_eq, List.mem_range]
      refine ⟨(hlt j hj).1, hj, ?_⟩
      rw [hp]
      simp
    rcases h4 i ((hL i).2 ⟨hiN, hi⟩) with h | ⟨q, hq, h5, h6⟩
    · exact .inl (hmem i h)
    · exact .inr ⟨q, hmem q hq, h5, h6⟩

/-! ### Gain -/

theorem localMax_shift (N : ℕ) (y y' : ℕ → ℝ) (t : ℝ) (h : ∀ k < N, y' k = y k + t) (i : ℕ) :
    LocalMax N y' i ↔ LocalMax N y i := by
  constructor
  · rintro ⟨l, r, h1, h2, h3, h4, h5, h6, h7⟩
    refine ⟨l, r, h1, h2, h3, h4, fun k hk hk' => ?_, ?_, ?_⟩
    · have := h5 k hk hk'
      rw [h k (by omega), h i (by omega)] at this
      linarith
    · rw [h l (by omega), h i (by omega)] at h6
      linarith
    · rw [h r (by omega), h i (by omega)] at h7
      linarith
  · rintro ⟨l, r, h1, h2, h3, h4, h5, h6, h7⟩
    refine ⟨l, r, h1, h2, h3, h4, fun k hk hk' => ?_, ?_, ?_⟩
    · rw [h k (by omega), h i (by omega), h5 k hk hk']
    · rw [h l (by omega), h i (by omega)]
      linarith
    · rw [h r (by omega), h i (by omega)]
      linarith

theorem lowest_shift (p t : ℝ) (vs : List ℝ) : ∀ m : ℝ,
    lowest (p + t) (vs.map (· + t)) (m + t) = lowest p vs m + t := by
  induction vs with
  | nil => intro m; rfl
  | cons v vs ih =>
    intro m
    simp only [List.map_cons, lowest, add_le_add_iff_right]
    by_cases hv : v ≤ p
    · rw [if_pos hv, if_pos hv, min_add_add_right, ih]
    · rw [if_neg hv, if_neg hv]

theorem prominence_shift (N : ℕ) (y y' : ℕ → ℝ) (t : ℝ) (h : ∀ k < N, y' k = y k + t) (i : ℕ) (hi : i < N) :
    prominence N y' i = prominence N y i := by
  unfold prominence
  have e1 : ((List.range (i + 1)).map y').reverse = (((List.range (i + 1)).map y).reverse).map (· + t) := by
    rw [List.map_reverse, List.map_map]
    congr 1
    refine List.map_congr_left fun k hk => ?_
    rw [List.mem_range] at hk
    exact h k (by omega)
  have e2 : ((List.range N).map y').drop i = (((List.range N).map y).drop i).map (· + t) := by
    rw [List.map_drop, List.map_map]
    congr 1
    refine List.map_congr_left fun k hk => ?_
    rw [List.mem_range] at hk
    exact h k hk
  simp only
  rw [e1, e2, h i hi, lowest_shift, lowest_shift, max_add_add_right]
  ring

theorem findPeaks_shift (N : ℕ) (y y' : ℕ → ℝ) (t : ℝ) (h : ∀ k < N, y' k = y k + t) (d : ℕ)
    (prom : Option ℝ) : findPeaks N y' d prom = findPeaks N y d prom := by
  classical
  unfold findPeaks
  simp only
  have e1 : ((List.range N).filter fun i => decide (LocalMax N y' i)) =
      (List.range N).filter fun i => decide (LocalMax N y i) :=
    List.filter_congr fun i _ => by rw [decide_eq_decide, localMax_shift N y y' t h]
  have e2 : (((List.range N).filter fun i => decide (LocalMax N y i)).reverse.mergeSort
      fun i j => decide (y' j ≤ y' i)) = ((List.range N).filter fun i => decide (LocalMax N y i)).reverse.mergeSort
      fun i j => decide (y j ≤ y i) := by
    have := List.map_mergeSort (f := id) (r := fun i j => decide (y' j ≤ y' i))
      (s := fun i j => decide (y j ≤ y i))
      (l := ((List.range N).filter fun i => decide (LocalMax N y i)).reverse) (by
        intro a ha b hb
        simp only [List.mem_reverse, List.mem_filter, List.mem_range] at ha hb
        simp only [id]
        rw [decide_eq_decide, h a ha.1, h b hb.1, add_le_add_iff_right])
    simpa using this
  rw [e1, e2]
  refine List.filter_congr fun i hi => ?_
  rw [decide_eq_decide, prominence_shift N y y' t h i (List.mem_range.1 hi)]

/-! ### The properties -/

/-- The indicator at one frequency: the power of a single response; for several responses the root
of `s² = |h₀| s + Σ |hᵢ|²`, the largest singular value of the matrix of the responses. -/
theorem C124_indicator (n : ℕ) (h : ℕ → ℂ) :
    indicator 1 h = ‖h 0‖ ^ 2 ∧
    (2 ≤ n → indicator n h = (‖h 0‖ + √(‖h 0‖ ^ 2 + 4 * ∑ i ∈ Ico 1 n, ‖h i‖ ^ 2)) / 2) := by
  refine ⟨by simp [indicator], fun hn => ?_⟩
  unfold indicator
  rw [if_neg (by omega), largestSV_eq n (by omega)]
  rfl

/-- The indicator at `k` Hz for the given spectra, or for their inverses. -/
noncomputable def cmif (ch : ℕ) (sp : ℕ → ℕ → ℂ) (anti : Bool) (k : ℕ) : ℝ :=
  indicator ch fun c => if anti then 1 / sp k c else sp k c

/-- `i` is the first of the frequencies `0, ..., top` Hz that is nearest to `f`. -/
def Nearest (top : ℕ) (f : ℝ) (i : ℕ) : Prop :=
  i ≤ top ∧ (∀ j ≤ top, |f - i| ≤ |f - j|) ∧ ∀ j < i, |f - i| < |f - j|

/-- Level in dB; numbers below the smallest normal number count as that number. -/
noncomputable def level (x : ℝ) : ℝ := 10 * Real.logb 10 (max x Level.tiny)

theorem tiny_pos : 0 < Level.tiny := by
  unfold Level.tiny
  positivity

theorem level_mono {a b : ℝ} (h : a ≤ b) : level a ≤ level b := by
  unfold level
  have := tiny_pos
  have h1 : Real.logb 10 (max a Level.tiny) ≤ Real.logb 10 (max b Level.tiny) :=
    Real.logb_le_logb_of_le (by norm_num) (lt_max_of_lt_right this) (max_le_max_right _ h)
  linarith

theorem indicator_nonneg (n : ℕ) (h : ℕ → ℂ) : 0 ≤ indicator n h := by
  unfold indicator
  split_ifs
  · positivity
  · unfold largestSV
    refine Real.sSup_nonneg ?_
    rintro r ⟨x, -, rfl⟩
    exact Real.sqrt_nonneg _

theorem powerDb_indicator (n : ℕ) (h : ℕ → ℂ) : powerDb (indicator n h) = level (indicator n h) := by
  unfold powerDb level
  rw [abs_of_nonneg (indicator_nonneg n h)]

theorem find_range (fs : ℕ) (lo hi : ℝ) :
    ∃ i0 i1, Helpers.findNearest [lo, hi] ((List.range (fs / 2 + 1)).map fun (k : ℕ) => (k : ℝ)) =
      .ok [i0, i1] ∧ Nearest (fs / 2) lo i0 ∧ Nearest (fs / 2) hi i1 := by
  obtain ⟨idx, h1, h2, h3⟩ := Helpers.C45_nearest [lo, hi]
    ((List.range (fs / 2 + 1)).map fun (k : ℕ) => (k : ℝ)) (by simp)
  have hget : ∀ j ≤ fs / 2, ((List.range (fs / 2 + 1)).map fun (k : ℕ) => (k : ℝ)).getD j 0 = j := by
    intro j hj
    rw [List.getD_eq_getElem _ _ (by simp; omega)]
    simp
  obtain ⟨i0, i1, rfl⟩ : ∃ a b, idx = [a, b] := by
    match idx, h2 with
    | [a, b], _ => exact ⟨a, b, rfl⟩
  refine ⟨i0, i1, h1, ?_, ?_⟩
  · obtain ⟨g1, g2, g3⟩ := h3 0 (by simp)
    simp only [List.getD_cons_zero, List.length_map, List.length_range] at g1 g2 g3
    rw [hget i0 (by omega)] at g2 g3
    refine ⟨by omega, fun j hj => ?_, fun j hj => ?_⟩
    · rw [← hget j hj]; exact g2 j (by omega)
    · have := g3 j hj
      rwa [hget j (by omega)] at this
  · obtain ⟨g1, g2, g3⟩ := h3 1 (by simp)
    simp only [List.getD_cons_zero, List.getD_cons_succ, List.length_map, List.length_range] at g1 g2 g3
    rw [hget i1 (by omega)] at g2 g3
    refine ⟨by omega, fun j hj => ?_, fun j hj => ?_⟩
    · rw [← hget j hj]; exact g2 j (by omega)
    · have := g3 j hj
      rwa [hget j (by omega)] at this

theorem findModes_eq (fs ch : ℕ) (sp : ℕ → ℕ → ℂ) (lo hi dist : ℝ) (prom : Option ℝ) (anti : Bool)
    (i0 i1 : ℕ)
    (h : Helpers.findNearest [lo, hi] ((List.range (fs / 2 + 1)).map fun (k : ℕ) => (k : ℝ)) = .ok [i0, i1]) :
    findModes fs ch sp lo hi dist prom anti = (if i1 - i0 < 2 then .error .indexError
      else open Classical in if anti = true ∧ ∃ k < i1 - i0, ∃ c < ch, sp (i0 + k) c = 0 then .error .notImplemented
      else .ok ((findPeaks (i1 - i0) (fun k => level (cmif ch sp anti (i0 + k))) (max 1 ⌈dist⌉.toNat) prom).map
        (i0 + ·))) := by
  unfold findModes
  rw [h]
  simp only [List.getD_cons_zero, List.getD_cons_succ, powerDb_indicator, cmif]

/-- Which modes are found: frequencies in rising order, strictly inside of the range, at which the
indicator is larger than at two frequencies below and above, with equal levels in between; two modes are
at least `dist` apart.  Without prominence no maximum is missed: if one is not reported, a mode nearer than
`dist` with at least the same level is. -/
theorem C124_modes (fs ch : ℕ) (sp : ℕ → ℕ → ℂ) (lo hi dist : ℝ) (prom : Option ℝ) (anti : Bool) (l : List ℕ)
    (h : findModes fs ch sp lo hi dist prom anti = .ok l) :
    ∃ i0 i1, Nearest (fs / 2) lo i0 ∧ Nearest (fs / 2) hi i1 ∧ i0 + 2 ≤ i1 ∧ l.Pairwise (· < ·) ∧
      (∀ m ∈ l, ∃ a b, i0 ≤ a ∧ a < m ∧ m < b ∧ b < i1 ∧ cmif ch sp anti a < cmif ch sp anti m ∧
        cmif ch sp anti b < cmif ch sp anti m ∧
        ∀ k, a < k → k < b → level (cmif ch sp anti k) = level (cmif ch sp anti m)) ∧
      (∀ m ∈ l, ∀ m' ∈ l, m < m' → (m : ℝ) + dist ≤ m') ∧
      (prom = none → ∀ a m b, i0 ≤ a → a < m → m < b → b < i1 → m = (a + b) / 2 →
        level (cmif ch sp anti a) < level (cmif ch sp anti m) →
        level (cmif ch sp anti b) < level (cmif ch sp anti m) →
        (∀ k, a < k → k < b → level (cmif ch sp anti k) = level (cmif ch sp anti m)) →
        m ∈ l ∨ ∃ m' ∈ l, |(m : ℝ) - m'| < dist ∧ level (cmif ch sp anti m) ≤ level (cmif ch sp anti m')) := by
  obtain ⟨i0, i1, e, n0, n1⟩ := find_range fs lo hi
  rw [findModes_eq fs ch sp lo hi dist prom anti i0 i1 e] at h
  by_cases hN : i1 - i0 < 2
  · rw [if_pos hN] at h
    cases h
  rw [if_neg hN] at h
  split at h
  · cases h
  cases h
  have hd1 : dist ≤ (max 1 ⌈dist⌉.toNat : ℕ) := by
    have h1 : dist ≤ ⌈dist⌉ := Int.le_ceil _
    have h2 : (⌈dist⌉ : ℝ) ≤ (⌈dist⌉.toNat : ℕ) := by exact_mod_cast Int.self_le_toNat _
    have h3 : ((⌈dist⌉.toNat : ℕ) : ℝ) ≤ (max 1 ⌈dist⌉.toNat : ℕ) := by exact_mod_cast le_max_right _ _
    linarith
  have hd2 : ∀ k : ℕ, k ≠ 0 → k < max 1 ⌈dist⌉.toNat → (k : ℝ) < dist := by
    intro k hk hk'
    have h1 : (k : ℤ) < ⌈dist⌉ := by omega
    have := Int.lt_ceil.1 h1
    exact_mod_cast this
  generalize max 1 ⌈dist⌉.toNat = d at *
  obtain ⟨s1, s2, s3, s4⟩ := findPeaks_spec (i1 - i0) (fun k => level (cmif ch sp anti (i0 + k))) d prom
  refine ⟨i0, i1, n0, n1, by omega, ?_, ?_, ?_, ?_⟩
  · rw [List.pairwise_map]
    exact s1.imp fun hab => by omega
  · intro m hm
    obtain ⟨i, hi, rfl⟩ := List.mem_map.1 hm
    obtain ⟨⟨a, b, g1, g2, g3, -, g5, g6, g7⟩, -⟩ := s2 i hi
    refine ⟨i0 + a, i0 + b, by omega, by omega, by omega, by omega, ?_, ?_, fun k hk hk' => ?_⟩
    · by_contra hcon
      exact absurd (level_mono (not_lt.1 hcon)) (not_le.2 g6)
    · by_contra hcon
      exact absurd (level_mono (not_lt.1 hcon)) (not_le.2 g7)
    · have := g5 (k - i0) (by omega) (by omega)
      beta_reduce at this
      rwa [show i0 + (k - i0) = k by omega] at this
  · intro m hm m' hm' hlt
    obtain ⟨i, hi, rfl⟩ := List.mem_map.1 hm
    obtain ⟨j, hj, rfl⟩ := List.mem_map.1 hm'
    have h1 := s3 i hi j hj (by omega)
    have h2 : ((i + d : ℕ) : ℝ) ≤ j := by exact_mod_cast h1
    push_cast at h2 ⊢
    linarith
  · intro hp a m b ha ham hmb hb hmid g1 g2 g3
    have hlm : LocalMax (i1 - i0) (fun k => level (cmif ch sp anti (i0 + k))) (m - i0) := by
      refine ⟨a - i0, b - i0, by omega, by omega, by omega, by omega, fun k hk hk' => ?_, ?_, ?_⟩
      · beta_reduce
        rw [g3 (i0 + k) (by omega) (by omega), show i0 + (m - i0) = m by omega]
      · beta_reduce
        rwa [show i0 + (a - i0) = a by omega, show i0 + (m - i0) = m by omega]
      · beta_reduce
        rwa [show i0 + (b - i0) = b by omega, show i0 + (m - i0) = m by omega]
    rcases s4 hp _ hlm with h1 | ⟨j, hj, h2, h3⟩
    · exact .inl (List.mem_map.2 ⟨_, h1, by omega⟩)
    · rw [show i0 + (m - i0) = m by omega] at h3
      by_cases hjm : i0 + j = m
      · exact .inl (List.mem_map.2 ⟨j, hj, hjm⟩)
      · refine .inr ⟨i0 + j, List.mem_map.2 ⟨j, hj, rfl⟩, ?_, h3⟩
        rw [abs_lt]
        rcases Nat.lt_or_gt_of_ne hjm with hlt | hgt
        · have := hd2 (m - (i0 + j)) (by omega) (by omega)
          rw [Nat.cast_sub hlt.le] at this
          have h0 : ((i0 + j : ℕ) : ℝ) < m := by exact_mod_cast hlt
          constructor <;> linarith
        · have := hd2 ((i0 + j) - m) (by omega) (by omega)
          rw [Nat.cast_sub (le_of_lt hgt)] at this
          have h0 : (m : ℝ) < ((i0 + j : ℕ) : ℝ) := by exact_mod_cast hgt
          constructor <;> linarith

/-- A range whose end is not above its start raises IndexError. -/
theorem C124_empty_range (fs ch : ℕ) (sp : ℕ → ℕ → ℂ) (lo hi dist : ℝ) (prom : Option ℝ) (anti : Bool)
    (h : hi ≤ lo) : findModes fs ch sp lo hi dist prom anti = .error .indexError := by
  obtain ⟨i0, i1, e, n0, n1⟩ := find_range fs lo hi
  rw [findModes_eq fs ch sp lo hi dist prom anti i0 i1 e, if_pos]
  by_contra hcon
  have hlt : i0 < i1 := by omega
  have h1 := n1.2.2 i0 hlt
  have h2 := n0.2.1 i1 n1.1
  have h3 : (i0 : ℝ) < i1 := by exact_mod_cast hlt
  rw [← sq_lt_sq] at h1
  rw [← sq_le_sq] at h2
  nlinarith

theorem indicator_scale (n : ℕ) (hn : 0 < n) (g : ℂ) (hg : g ≠ 0) :
    ∃ a : ℝ, 0 < a ∧ ∀ h : ℕ → ℂ, indicator n (fun c => g * h c) = a * indicator n h := by
  have hg' : 0 < ‖g‖ := norm_pos_iff.2 hg
  by_cases h1 : n = 1
  · subst h1
    refine ⟨‖g‖ ^ 2, by positivity, fun h => ?_⟩
    rw [(C124_indicator 1 _).1, (C124_indicator 1 _).1, norm_mul, mul_pow]
  · refine ⟨‖g‖, hg', fun h => ?_⟩
    rw [(C124_indicator n _).2 (by omega), (C124_indicator n _).2 (by omega)]
    simp only [norm_mul, mul_pow]
    rw [← mul_sum]
    have : ‖g‖ ^ 2 * ‖h 0‖ ^ 2 + 4 * (‖g‖ ^ 2 * ∑ i ∈ Ico 1 n, ‖h i‖ ^ 2) =
        ‖g‖ ^ 2 * (‖h 0‖ ^ 2 + 4 * ∑ i ∈ Ico 1 n, ‖h i‖ ^ 2) := by ring
    rw [this, Real.sqrt_mul (by positivity), Real.sqrt_sq hg'.le]
    ring

/-- A gain applied to all responses does not change the modes, as long as no indicator is below the
smallest normal number. -/
theorem C124_gain (fs ch : ℕ) (hch : 0 < ch) (sp : ℕ → ℕ → ℂ) (lo hi dist : ℝ) (prom : Option ℝ) (anti : Bool)
    (g : ℂ) (hg : g ≠ 0)
    (h1 : ∀ k ≤ fs / 2, Level.tiny ≤ cmif ch sp anti k)
    (h2 : ∀ k ≤ fs / 2, Level.tiny ≤ cmif ch (fun k c => g * sp k c) anti k) :
    findModes fs ch (fun k c => g * sp k c) lo hi dist prom anti = findModes fs ch sp lo hi dist prom anti := by
  classical
  obtain ⟨i0, i1, e, n0, n1⟩ := find_range fs lo hi
  rw [findModes_eq fs ch _ lo hi dist prom anti i0 i1 e, findModes_eq fs ch _ lo hi dist prom anti i0 i1 e]
  by_cases hN : i1 - i0 < 2
  · rw [if_pos hN, if_pos hN]
  rw [if_neg hN, if_neg hN]
  simp only [mul_eq_zero, hg, false_or]
  obtain ⟨a, ha, hsc⟩ : ∃ a : ℝ, 0 < a ∧ ∀ k, cmif ch (fun k c => g * sp k c) anti k = a * cmif ch sp anti k := by
    cases anti with
    | false =>
      obtain ⟨a, ha, h⟩ := indicator_scale ch hch g hg
      exact ⟨a, ha, fun k => by simpa [cmif] using h fun c => sp k c⟩
    | true =>
      obtain ⟨a, ha, h⟩ := indicator_scale ch hch (1 / g) (one_div_ne_zero hg)
      refine ⟨a, ha, fun k => ?_⟩
      have := h fun c => 1 / sp k c
      simp only [cmif, if_true]
      rw [← this]
      congr 1
      funext c
      rw [one_div_mul_one_div]
  have hp : findPeaks (i1 - i0) (fun k => level (cmif ch (fun k c => g * sp k c) anti (i0 + k)))
      (max 1 ⌈dist⌉.toNat) prom = findPeaks (i1 - i0) (fun k => level (cmif ch sp anti (i0 + k)))
      (max 1 ⌈dist⌉.toNat) prom := by
    refine findPeaks_shift _ _ _ (10 * Real.logb 10 a) (fun k hk => ?_) _ _
    have hle : i0 + k ≤ fs / 2 := by
      have := n1.1
      omega
    have q1 := h1 _ hle
    have q2 := h2 _ hle
    have ht := tiny_pos
    unfold level
    rw [max_eq_left q1, max_eq_left q2, hsc, Real.logb_mul ha.ne' (by linarith)]
    ring
  rw [hp]

/-- One response given several times: the level of the indicator is half of the level of the single
response plus a constant, so that all prominences are halved. -/
theorem C124_repeated (h : ℕ → ℂ) (n : ℕ) (hn : 2 ≤ n) (hne : h 0 ≠ 0) :
    10 * Real.logb 10 (indicator n fun _ => h 0) =
      10 * Real.logb 10 (indicator 1 h) / 2 + 10 * Real.logb 10 ((1 + √(4 * n - 3)) / 2) := by
  have hp : 0 < ‖h 0‖ := norm_pos_iff.2 hne
  rw [(C124_indicator 1 h).1, (C124_indicator n _).2 hn]
  have e1 : ‖h 0‖ ^ 2 + 4 * ∑ _i ∈ Ico 1 n, ‖h 0‖ ^ 2 = ‖h 0‖ ^ 2 * (4 * n - 3) := by
    rw [sum_const, Nat.card_Ico, nsmul_eq_mul, Nat.cast_sub (by omega)]
    push_cast
    ring
  rw [e1, Real.sqrt_mul (by positivity), Real.sqrt_sq hp.le,
    show (‖h 0‖ + ‖h 0‖ * √(4 * n - 3)) / 2 = ‖h 0‖ * ((1 + √(4 * n - 3)) / 2) by ring,
    Real.logb_mul hp.ne' (by positivity), Real.logb_pow]
  push_cast
  ring

/-! ### Witnesses -/

theorem Nearest.unique {top : ℕ} {f : ℝ} {i j : ℕ} (hi : Nearest top f i) (hj : Nearest top f j) : i = j := by
  rcases Nat.lt_trichotomy i j with h | h | h
  · exact absurd (hi.2.1 j hj.1) (not_le.2 (hj.2.2 i h))
  · exact h
  · exact absurd (hj.2.1 i hi.1) (not_le.2 (hi.2.2 j h))

theorem nearest_self (top i : ℕ) (h : i ≤ top) : Nearest top i i := by
  refine ⟨h, fun j _ => by simp, fun j hj => ?_⟩
  have : (j : ℝ) < i := by exact_mod_cast hj
  rw [sub_self, abs_zero]
  exact abs_pos.2 (by linarith)

theorem range_ints (fs a b : ℕ) (ha : a ≤ fs / 2) (hb : b ≤ fs / 2) :
    Helpers.findNearest [(a : ℝ), (b : ℝ)] ((List.range (fs / 2 + 1)).map fun (k : ℕ) => (k : ℝ)) = .ok [a, b] := by
  obtain ⟨i0, i1, e, n0, n1⟩ := find_range fs a b
  rw [e, n0.unique (nearest_self _ a ha), n1.unique (nearest_self _ b hb)]

/-- The only peak of values that rise up to index `m` and fall from there. -/
theorem one_peak (N m d : ℕ) (y : ℕ → ℝ) (h0 : 0 < m) (hm : m + 1 < N) (hup : ∀ k < m, y k < y (k + 1))
    (hdown : ∀ k, m ≤ k → k + 1 < N → y (k + 1) < y k) (prom : Option ℝ) :
    findPeaks N y d prom = if ∀ p ∈ prom, p ≤ prominence N y m then [m] else [] := by
  classical
  have hlm : ∀ i, LocalMax N y i ↔ i = m := by
    intro i
    constructor
    · rintro ⟨l, r, h1, h2, h3, h4, h5, h6, h7⟩
      by_contra hne
      rcases Nat.lt_or_gt_of_ne hne with hlt | hgt
      · have hi := hup i hlt
        by_cases hr : r = i + 1
        · rw [hr] at h7
          linarith
        · rw [h5 (i + 1) (by omega) (by omega)] at hi
          linarith
      · have hi := hdown (i - 1) (by omega) (by omega)
        rw [show i - 1 + 1 = i by omega] at hi
        by_cases hl : l = i - 1
        · rw [hl] at h6
          linarith
        · rw [h5 (i - 1) (by omega) (by omega)] at hi
          linarith
    · rintro rfl
      refine ⟨i - 1, i + 1, by omega, by omega, hm, by omega, fun k hk hk' => ?_, ?_, hdown i le_rfl hm⟩
      · rw [show k = i by omega]
      · have := hup (i - 1) (by omega)
        rwa [show i - 1 + 1 = i by omega] at this
  have hf : ∀ P : Prop, ∀ [Decidable P], ((List.range N).filter fun i => decide (i = m ∧ P)) =
      if P then [m] else [] := by
    intro P _
    by_cases hP : P
    · rw [if_pos hP]
      have : (fun i => decide (i = m ∧ P)) = fun i => i == m := by
        funext i
        rw [Bool.eq_iff_iff]
        simp [hP]
      rw [this, List.filter_beq, List.count_eq_one_of_mem List.nodup_range (List.mem_range.2 (by omega))]
      rfl
    · rw [if_neg hP]
      simp [hP]
  unfold findPeaks
  have e1 : ((List.range N).filter fun i => decide (LocalMax N y i)) = [m] := by
    have := hf True
    simp only [and_true, if_true] at this
    rw [← this]
    exact List.filter_congr fun i _ => by rw [decide_eq_decide, hlm]
  simp only [e1, List.reverse_singleton, List.mergeSort_singleton, select, List.foldl_cons, List.foldl_nil,
    List.not_mem_nil, false_imp_iff, implies_true, if_true, List.mem_singleton]
  rw [← hf]
  refine List.filter_congr fun i _ => ?_
  rw [decide_eq_decide]
  constructor
  · rintro ⟨rfl, h⟩
    exact ⟨rfl, h⟩
  · rintro ⟨rfl, h⟩
    exact ⟨rfl, h⟩

theorem level_lt {a b : ℝ} (h : a < b) (hb : Level.tiny < b) : level a < level b := by
  unfold level
  have := tiny_pos
  have h1 : Real.logb 10 (max a Level.tiny) < Real.logb 10 (max b Level.tiny) :=
    Real.logb_lt_logb (by norm_num) (lt_max_of_lt_right this) (by rw [max_eq_left hb.le]; exact max_lt h hb)
  linarith

theorem tiny_lt_one : Level.tiny < 1 := by
  unfold Level.tiny
  exact zpow_lt_one_of_neg₀ (by norm_num) (by norm_num)

/-- Modes of responses with one maximum at `m` Hz. -/
theorem one_mode (fs ch hi m : ℕ) (sp : ℕ → ℕ → ℂ) (dist : ℝ) (prom : Option ℝ) (h0 : 0 < m) (hm : m + 1 < hi)
    (hfs : hi ≤ fs / 2) (hup : ∀ k < m, level (cmif ch sp false k) < level (cmif ch sp false (k + 1)))
    (hdown : ∀ k, m ≤ k → k + 1 < hi → level (cmif ch sp false (k + 1)) < level (cmif ch sp false k)) :
    findModes fs ch sp 0 hi dist prom false =
      .ok (open Classical in
        if ∀ p ∈ prom, p ≤ prominence hi (fun k => level (cmif ch sp false k)) m then [m] else []) := by
  classical
  have e := range_ints fs 0 hi (Nat.zero_le _) hfs
  rw [Nat.cast_zero] at e
  rw [findModes_eq fs ch sp 0 hi dist prom false 0 hi e, if_neg (by omega), if_neg (by simp)]
  simp only [Nat.zero_add, Nat.sub_zero]
  rw [one_peak hi m _ _ h0 hm hup hdown]
  simp

theorem cmif_two (sp : ℕ → ℕ → ℂ) (k : ℕ) (a b : ℝ) (h0 : ‖sp k 0‖ = a) (h1 : ‖sp k 1‖ = b) :
    cmif 2 sp false k = (a + √(a ^ 2 + 4 * b ^ 2)) / 2 := by
  unfold cmif
  rw [(C124_indicator 2 _).2 le_rfl]
  simp [h0, h1]

/-- The modes depend on the order of the responses: exchanging two channels moves the mode. -/
theorem C124_order_wrong : ∃ (fs : ℕ) (sp : ℕ → ℕ → ℂ) (lo hi dist : ℝ),
    findModes fs 2 sp lo hi dist none false = .ok [1] ∧
    findModes fs 2 (fun k c => sp k (1 - c)) lo hi dist none false = .ok [2] := by
  obtain ⟨sp, hsp⟩ : ∃ sp : ℕ → ℕ → ℂ, sp = fun k c =>
      if k = 1 then (if c = 0 then 1 else 2) else if k = 2 then (if c = 0 then 5 / 2 else 0) else 0 := ⟨_, rfl⟩
  have ht := tiny_lt_one
  have e0 : ∀ k, k ≠ 1 → k ≠ 2 → cmif 2 sp false k = 0 := by
    intro k h1 h2
    rw [cmif_two sp k 0 0 (by simp [hsp, h1, h2]) (by simp [hsp, h1, h2])]
    simp
  have e1 : cmif 2 sp false 1 = (1 + √17) / 2 := by
    rw [cmif_two sp 1 1 2 (by simp [hsp]) (by simp [hsp])]
    norm_num
  have e2 : cmif 2 sp false 2 = 5 / 2 := by
    rw [cmif_two sp 2 (5 / 2) 0 (by simp [hsp]) (by simp [hsp])]
    rw [show (5 / 2 : ℝ) ^ 2 + 4 * 0 ^ 2 = (5 / 2) ^ 2 by norm_num, Real.sqrt_sq (by norm_num)]
    norm_num
  obtain ⟨sp', hsp'⟩ : ∃ sp' : ℕ → ℕ → ℂ, sp' = fun k c => sp k (1 - c) := ⟨_, rfl⟩
  have f0 : ∀ k, k ≠ 1 → k ≠ 2 → cmif 2 sp' false k = 0 := by
    intro k h1 h2
    rw [cmif_two sp' k 0 0 (by simp [hsp', hsp, h1, h2]) (by simp [hsp', hsp, h1, h2])]
    simp
  have f1 : cmif 2 sp' false 1 = (2 + √8) / 2 := by
    rw [cmif_two sp' 1 2 1 (by simp [hsp', hsp]) (by simp [hsp', hsp])]
    norm_num
  have f2 : cmif 2 sp' false 2 = 5 / 2 := by
    rw [cmif_two sp' 2 0 (5 / 2) (by simp [hsp', hsp]) (by simp [hsp', hsp])]
    rw [show (0 : ℝ) ^ 2 + 4 * (5 / 2) ^ 2 = 5 ^ 2 by norm_num, Real.sqrt_sq (by norm_num)]
    norm_num
  have r17 : 4 < √17 := Real.lt_sqrt_of_sq_lt (by norm_num)
  have r8 : √8 < 3 := (Real.sqrt_lt' (by norm_num)).2 (by norm_num)
  have r8' : 0 ≤ √8 := Real.sqrt_nonneg _
  refine ⟨10, sp, 0, (4 : ℕ), 5, ?_, ?_⟩
  · rw [one_mode 10 2 4 1 sp 5 none (by norm_num) (by norm_num) (by norm_num) ?_ ?_]
    · simp
    · intro k hk
      interval_cases k
      rw [e0 0 (by norm_num) (by norm_num), e1]
      exact level_lt (by linarith) (by linarith)
    · intro k hk hk'
      have : k = 1 ∨ k = 2 := by omega
      rcases this with rfl | rfl
      · rw [e1, e2]
        exact level_lt (by linarith) (by linarith)
      · rw [e2, e0 (2 + 1) (by norm_num) (by norm_num)]
        exact level_lt (by norm_num) (by linarith)
  · rw [← hsp', one_mode 10 2 4 2 sp' 5 none (by norm_num) (by norm_num) (by norm_num) ?_ ?_]
    · simp
    · intro k hk
      interval_cases k
      · rw [f0 0 (by norm_num) (by norm_num), f1]
        exact level_lt (by linarith) (by linarith)
      · rw [f1, f2]
        exact level_lt (by linarith) (by linarith)
    · intro k hk hk'
      have : k = 2 := by omega
      subst this
      rw [f2, f0 (2 + 1) (by norm_num) (by norm_num)]
      exact level_lt (by norm_num) (by linarith)

theorem prominence_three (y : ℕ → ℝ) (h0 : y 0 ≤ y 1) (h2 : y 2 = y 0) : prominence 3 y 1 = y 1 - y 0 := by
  unfold prominence
  have e1 : ((List.range (1 + 1)).map y).reverse = [y 1, y 0] := rfl
  have e2 : ((List.range 3).map y).drop 1 = [y 1, y 2] := rfl
  simp only [e1, e2, lowest, h2, le_refl, h0, if_true, min_self, min_eq_right, max_self]

/-- One response and the same response twice: with a required prominence the mode of the first is not
found in the second. -/
theorem C124_repeated_wrong : ∃ (fs : ℕ) (sp : ℕ → ℕ → ℂ) (lo hi dist prom : ℝ),
    findModes fs 1 sp lo hi dist (some prom) false = .ok [1] ∧
    findModes fs 2 (fun k _ => sp k 0) lo hi dist (some prom) false = .ok [] := by
  obtain ⟨sp, hsp⟩ : ∃ sp : ℕ → ℕ → ℂ, sp = fun k _ => if k = 1 then 10 else 1 := ⟨_, rfl⟩
  have ht := tiny_lt_one
  have e0 : ∀ k, k ≠ 1 → level (cmif 1 sp false k) = 0 := by
    intro k hk
    unfold cmif level
    rw [(C124_indicator 1 _).1]
    simp [hsp, hk, max_eq_left ht.le]
  have e1 : level (cmif 1 sp false 1) = 20 := by
    unfold cmif level
    rw [(C124_indicator 1 _).1]
    have : ‖if false = true then 1 / sp 1 0 else sp 1 0‖ ^ 2 = (10 : ℝ) ^ 2 := by simp [hsp]
    rw [this, max_eq_left (by linarith), Real.logb_pow, Real.logb_self_eq_one (by norm_num)]
    norm_num
  obtain ⟨q, hq⟩ : ∃ q, q = 10 * Real.logb 10 ((1 + √5) / 2) := ⟨_, rfl⟩
  have g0 : ∀ a : ℝ, 1 ≤ a → ∀ k, ‖sp k 0‖ = a →
      level (cmif 2 (fun k _ => sp k 0) false k) = 10 * Real.logb 10 a + q := by
    intro a ha k hk
    rw [cmif_two (fun k _ => sp k 0) k a a hk hk]
    have h5 : √(a ^ 2 + 4 * a ^ 2) = a * √5 := by
      rw [show a ^ 2 + 4 * a ^ 2 = a ^ 2 * 5 by ring, Real.sqrt_mul (by positivity), Real.sqrt_sq (by linarith)]
    have r5 : 2 < √5 := Real.lt_sqrt_of_sq_lt (by norm_num)
    unfold level
    rw [h5, max_eq_left (by nlinarith), show (a + a * √5) / 2 = a * ((1 + √5) / 2) by ring,
      Real.logb_mul (by linarith) (by positivity), hq]
    ring
  have f0 : ∀ k, k ≠ 1 → level (cmif 2 (fun k _ => sp k 0) false k) = q := by
    intro k hk
    rw [g0 1 le_rfl k (by simp [hsp, hk])]
    simp
  have f1 : level (cmif 2 (fun k _ => sp k 0) false 1) = 10 + q := by
    rw [g0 10 (by norm_num) 1 (by simp [hsp]), Real.logb_self_eq_one (by norm_num)]
    norm_num
  refine ⟨6, sp, 0, (3 : ℕ), 5, 15, ?_, ?_⟩
  · rw [one_mode 6 1 3 1 sp 5 (some 15) (by norm_num) (by norm_num) (by norm_num) ?_ ?_]
    · rw [prominence_three _ (by rw [e0 0 (by norm_num), e1]; norm_num)
        (by rw [e0 0 (by norm_num), e0 2 (by norm_num)]), e0 0 (by norm_num), e1]
      norm_num
    · intro k hk
      interval_cases k
      rw [e0 0 (by norm_num), e1]
      norm_num
    · intro k hk hk'
      have : k = 1 := by omega
      subst this
      rw [e0 (1 + 1) (by norm_num), e1]
      norm_num
  · rw [one_mode 6 2 3 1 _ 5 (some 15) (by norm_num) (by norm_num) (by norm_num) ?_ ?_]
    · rw [prominence_three _ (by rw [f0 0 (by norm_num), f1]; linarith)
        (by rw [f0 0 (by norm_num), f0 2 (by norm_num)]), f0 0 (by norm_num), f1]
      norm_num
    · intro k hk
      interval_cases k
      rw [f0 0 (by norm_num), f1]
      linarith
    · intro k hk hk'
      have : k = 1 := by omega
      subst this
      rw [f0 (1 + 1) (by norm_num), f1]
      linarith

/-! ### The hypotheses are met -/

/-- A call that returns a mode. -/
example : ∃ fs sp lo hi dist, findModes fs 2 sp lo hi dist none false = .ok [1] := by
  obtain ⟨fs, sp, lo, hi, dist, h, -⟩ := C124_order_wrong
  exact ⟨fs, sp, lo, hi, dist, h⟩

/-- Spectra above the limit. -/
example : ∀ k ≤ 48000 / 2, Level.tiny ≤ cmif 1 (fun _ _ => 1) false k ∧
    Level.tiny ≤ cmif 1 (fun _ _ => 2 * 1) false k := by
  intro k _
  have := tiny_lt_one
  unfold cmif
  rw [(C124_indicator 1 _).1, (C124_indicator 1 _).1]
  simp
  constructor <;> linarith

end Verif.RoomModes
