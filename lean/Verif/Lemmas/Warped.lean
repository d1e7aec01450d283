import Verif.Model.Warped
import Verif.Spec.Allpass
import Verif.Lemmas.Channels
import Mathlib.Algebra.BigOperators.Intervals
import Mathlib.Algebra.BigOperators.Ring.Finset
import Mathlib.Data.List.GetD
import Mathlib.Tactic.Ring
import Mathlib.Tactic.LinearCombination
import Mathlib.Tactic.FieldSimp

/-! Helper lemmas for the warped filters. -/

namespace Verif.Warped

variable {K : Type} [Field K]

/-- New stage values computed from the old column. -/
def stage (w : K) (col : ℕ → K) (x : K) : ℕ → K
  | 0 => x
  | k + 1 => (col (k + 1) - stage w col x k) * w + col k

theorem loop_spec (b : List K) (w : K) (col : ℕ → K) (x : K) (hb : b ≠ []) (n : ℕ) :
    (loop b w ⟨col, x, x * b.getD 0 0⟩ n).residue = stage w col x n ∧
    (∀ r, (loop b w ⟨col, x, x * b.getD 0 0⟩ n).col r
      = if r < n then stage w col x r else col r) ∧
    (loop b w ⟨col, x, x * b.getD 0 0⟩ n).output
      = ∑ k ∈ Finset.range (min (n + 1) b.length), b.getD k 0 * stage w col x k := by
  have hlen : 1 ≤ b.length := by
    cases b with
    | nil => exact absurd rfl hb
    | cons => simp
  induction n with
  | zero =>
    refine ⟨rfl, fun r => by simp [loop], ?_⟩
    simp [loop, min_eq_left hlen, stage, mul_comm]
  | succ n ih =>
    obtain ⟨h1, h2, h3⟩ := ih
    have hres : (loop b w ⟨col, x, x * b.getD 0 0⟩ (n + 1)).residue
        = stage w col x (n + 1) := by
      simp only [loop, body, h1, h2, stage]
      simp
    refine ⟨hres, fun r => ?_, ?_⟩
    · simp only [loop, body, h1, h2]
      by_cases hr : r = n
      · simp [hr]
      · by_cases hr2 : r < n
        · have : r < n + 1 := by omega
          simp [hr, hr2, this]
        · have : ¬ r < n + 1 := by omega
          simp [hr, hr2, this]
    · have hr : (loop b w ⟨col, x, x * b.getD 0 0⟩ (n + 1)).output
          = if n + 1 < b.length then (loop b w ⟨col, x, x * b.getD 0 0⟩ n).output
              + stage w col x (n + 1) * b.getD (n + 1) 0
            else (loop b w ⟨col, x, x * b.getD 0 0⟩ n).output := by
        rw [← hres]; rfl
      rw [hr, h3]
      split
      · rename_i hlt
        rw [min_eq_left (by omega : n + 1 ≤ b.length),
          min_eq_left (by omega : n + 1 + 1 ≤ b.length), Finset.sum_range_succ _ (n + 1)]
        ring
      · rename_i hlt
        rw [min_eq_right (by omega : b.length ≤ n + 1),
          min_eq_right (by omega : b.length ≤ n + 1 + 1)]

/-- One call: output and new column, when the buffer has at least as many rows as
there are taps. -/
theorem step_spec (b : List K) (w : K) (N : ℕ) (col : ℕ → K) (x : K) (hb : b ≠ [])
    (hN : b.length ≤ N) :
    (step b w N col x).1 = ∑ k ∈ Finset.range b.length, b.getD k 0 * stage w col x k ∧
    ∀ r < N, (step b w N col x).2 r = stage w col x r := by
  have hlen : 1 ≤ b.length := by
    cases b with
    | nil => exact absurd rfl hb
    | cons => simp
  obtain ⟨h1, h2, h3⟩ := loop_spec b w col x hb (N - 1)
  refine ⟨?_, fun r hr => ?_⟩
  · have : min (N - 1 + 1) b.length = b.length := by omega
    rw [this] at h3
    exact h3
  · simp only [step, h1, h2]
    by_cases hr' : r = N - 1
    · simp [hr']
    · have : r < N - 1 := by omega
      simp [hr', this]

theorem chainTap_succ (w : K) (k : ℕ) (x : K) (xs : List K) :
    chainTap w (k + 1) (x :: xs)
      = chainTap w k xs + w * (chainTap w (k + 1) xs - chainTap w k (x :: xs)) := by
  have key : ∀ k (x : K) (xs : List K), ∃ y,
      (allpass w)^[k] (x :: xs) = y :: (allpass w)^[k] xs := by
    intro k
    induction k with
    | zero => exact fun x xs => ⟨x, rfl⟩
    | succ k ih =>
      intro x xs
      rw [Function.iterate_succ_apply, Function.iterate_succ_apply]
      exact ih _ _
  obtain ⟨y, hy⟩ := key k x xs
  unfold chainTap
  rw [Function.iterate_succ_apply', Function.iterate_succ_apply', hy]
  simp [allpass]

theorem chainTap_nil (w : K) (k : ℕ) : chainTap w k ([] : List K) = 0 := by
  have : (allpass w)^[k] ([] : List K) = [] := by
    induction k with
    | zero => rfl
    | succ k ih => rw [Function.iterate_succ_apply', ih]; rfl
  simp [chainTap, this]

/-- If the column holds the chain values of the past, the new stages are the chain
values including the present. -/
theorem stage_chain (w : K) (N : ℕ) (col : ℕ → K) (x : K) (xs : List K)
    (hcol : ∀ r < N, col r = chainTap w r xs) (k : ℕ) (hk : k < N) :
    stage w col x k = chainTap w k (x :: xs) := by
  induction k with
  | zero => rfl
  | succ k ih =>
    rw [chainTap_succ, ← ih (by omega), stage, hcol _ hk, hcol k (by omega)]
    ring

theorem fir_colAfter (b : List K) (w : K) (hb : b ≠ []) (xs : List K) :
    ∀ r < b.length, (firColumn b w).colAfter xs r = chainTap w r xs := by
  induction xs with
  | nil => intro r _; rw [chainTap_nil]; rfl
  | cons x xs ih =>
    intro r hr
    have h := (step_spec b w b.length ((firColumn b w).colAfter xs) x hb le_rfl).2 r hr
    rw [stage_chain w b.length _ x xs ih r hr] at h
    exact h

theorem fir_out (b : List K) (w : K) (hb : b ≠ []) (xs : List K) (x : K) :
    (firColumn b w).out xs x = warpedSum w b (x :: xs) := by
  have h := (step_spec b w b.length ((firColumn b w).colAfter xs) x hb le_rfl).1
  refine h.trans (Finset.sum_congr rfl fun k hk => ?_)
  rw [stage_chain w b.length _ x xs (fir_colAfter b w hb xs) k (Finset.mem_range.1 hk)]

/-! ### Warping factor zero -/

theorem chainTap_zero_factor (k : ℕ) (xs : List K) : chainTap 0 k xs = xs.getD k 0 := by
  induction k generalizing xs with
  | zero => cases xs <;> rfl
  | succ k ih =>
    cases xs with
    | nil => rw [chainTap_nil]; simp
    | cons x xs => rw [chainTap_succ, ih]; simp

/-! ### The feedback weights -/

theorem sigmaLoop_spec (w : K) (as : List K) (hne : as ≠ []) (i : ℕ) (v col : ℕ → K)
    (hv : ∀ k, v (k + 1) = (col (k + 1) - v k) * w + col k) :
    ∑ k ∈ Finset.range as.length, as.getD k 0 * v (i + k)
      = (sigmaLoop w as).1 * v i
        + (dot col (sigmaLoop w as).2 i - w * (sigmaLoop w as).1 * col i) := by
  induction as generalizing i with
  | nil => exact absurd rfl hne
  | cons a as ih =>
    cases as with
    | nil => simp [sigmaLoop, dot]
    | cons a' as =>
      have h := ih (by simp) (i + 1)
      rw [List.length_cons, Finset.sum_range_succ']
      have e : ∀ k, (a :: a' :: as).getD (k + 1) 0 * v (i + (k + 1))
          = (a' :: as).getD k 0 * v (i + 1 + k) := by
        intro k; rw [List.getD_cons_succ]; congr 2; omega
      rw [Finset.sum_congr rfl fun k _ => e k, h, hv i]
      simp only [sigmaLoop, dot, List.getD_cons_zero, Nat.add_zero]
      ring

/-- The number `S` of the sigma recursion is the value of the coefficient polynomial. -/
theorem sigmaLoop_fst (w : K) (as : List K) :
    (sigmaLoop w as).1 = ∑ k ∈ Finset.range as.length, as.getD k 0 * (-w) ^ k := by
  induction as with
  | nil => simp [sigmaLoop]
  | cons a as ih =>
    rw [List.length_cons, Finset.sum_range_succ']
    cases as with
    | nil => simp [sigmaLoop]
    | cons a' as =>
      simp only [sigmaLoop, List.getD_cons_succ, List.getD_cons_zero, pow_zero, mul_one, ih]
      rw [Finset.mul_sum, sub_eq_add_neg, ← Finset.sum_neg_distrib, add_comm]
      congr 1
      exact Finset.sum_congr rfl fun k _ => by ring

/-! ### The warped IIR filter -/

/-- The signal entering the allpass chain of the IIR filter (most recent first). -/
def internal (b a : List K) (w : K) : List K → List K
  | [] => []
  | x :: xs =>
    ((x + dot ((iirColumn b a w).colAfter xs) (sigmas w (a.map (· / a.getD 0 0))).2 0)
      * (sigmas w (a.map (· / a.getD 0 0))).1) :: internal b a w xs

theorem iir_colAfter (b a : List K) (w : K) (hb : b ≠ []) (xs : List K) :
    ∀ r < max a.length b.length,
      (iirColumn b a w).colAfter xs r = chainTap w r (internal b a w xs) := by
  induction xs with
  | nil => intro r _; rw [internal, chainTap_nil]; rfl
  | cons x xs ih =>
    intro r hr
    have h := (step_spec (b.map (· / a.getD 0 0)) w (max a.length b.length)
      ((iirColumn b a w).colAfter xs)
      ((x + dot ((iirColumn b a w).colAfter xs) (sigmas w (a.map (· / a.getD 0 0))).2 0)
      * (sigmas w (a.map (· / a.getD 0 0))).1) (by simpa using hb) (by simp)).2 r hr
    rw [stage_chain w (max a.length b.length) _ _ (internal b a w xs) ih r hr] at h
    exact h

theorem iir_out (b a : List K) (w : K) (hb : b ≠ []) (xs : List K) (x : K) :
    (iirColumn b a w).out xs x
      = warpedSum w (b.map (· / a.getD 0 0)) (internal b a w (x :: xs)) := by
  have h := (step_spec (b.map (· / a.getD 0 0)) w (max a.length b.length)
      ((iirColumn b a w).colAfter xs)
      ((x + dot ((iirColumn b a w).colAfter xs) (sigmas w (a.map (· / a.getD 0 0))).2 0)
      * (sigmas w (a.map (· / a.getD 0 0))).1) (by simpa using hb) (by simp)).1
  refine h.trans (Finset.sum_congr rfl fun k hk => ?_)
  rw [List.length_map, Finset.mem_range] at hk
  rw [stage_chain w (max a.length b.length) _ _ (internal b a w xs) (iir_colAfter b a w hb xs) k
    (by omega)]
  rfl

theorem iir_loop (b : List K) (a0 a1 : K) (as : List K) (w : K) (hb : b ≠ []) (ha : a0 ≠ 0)
    (hd : 1 - w * (sigmaLoop w ((a1 :: as).map (· / a0))).1 ≠ 0) (x : K) (xs : List K) :
    warpedSum w ((a0 :: a1 :: as).map (· / a0)) (internal b (a0 :: a1 :: as) w (x :: xs)) = x := by
  set col := (iirColumn b (a0 :: a1 :: as) w).colAfter xs with hcol
  set u : K := (x + dot col (sigmas w ((a0 :: a1 :: as).map (· / a0))).2 0)
      * (sigmas w ((a0 :: a1 :: as).map (· / a0))).1 with hu
  have hint : internal b (a0 :: a1 :: as) w (x :: xs) = u :: internal b (a0 :: a1 :: as) w xs := rfl
  rw [hint]
  have hst : ∀ k < (a0 :: a1 :: as).length,
      chainTap w k (u :: internal b (a0 :: a1 :: as) w xs) = stage w col u k := by
    intro k hk
    exact (stage_chain w (max (a0 :: a1 :: as).length b.length) col u _
      (iir_colAfter b (a0 :: a1 :: as) w hb xs) k (by omega)).symm
  have hspec := sigmaLoop_spec w ((a1 :: as).map (· / a0)) (by simp) 1 (stage w col u) col
    (fun k => rfl)
  have hdotneg : ∀ (l : List K) i, dot col (l.map fun s => -s) i = - dot col l i := by
    intro l
    induction l with
    | nil => intro i; simp [dot]
    | cons s l ih => intro i; simp only [List.map_cons, dot, ih]; ring
  have hu' : u * (1 - w * (sigmaLoop w ((a1 :: as).map (· / a0))).1)
      = x - ((sigmaLoop w ((a1 :: as).map (· / a0))).1 * col 0
          + dot col (sigmaLoop w ((a1 :: as).map (· / a0))).2 1) := by
    rw [hu]
    simp only [List.map_cons, sigmas] at hd ⊢
    rw [mul_assoc, one_div_mul_cancel hd, mul_one]
    simp only [dot, hdotneg]
    ring
  unfold warpedSum
  rw [List.length_map, List.length_cons, Finset.sum_range_succ']
  have e : ∀ k ∈ Finset.range (a1 :: as).length,
      ((a0 :: a1 :: as).map (· / a0)).getD (k + 1) 0
        * chainTap w (k + 1) (u :: internal b (a0 :: a1 :: as) w xs)
      = ((a1 :: as).map (· / a0)).getD k 0 * stage w col u (1 + k) := by
    intro k hk
    rw [Finset.mem_range] at hk
    rw [hst (k + 1) (by simpa using hk), Nat.add_comm 1 k]
    rfl
  rw [Finset.sum_congr rfl e]
  rw [List.length_map] at hspec
  rw [hspec, hst 0 (by simp)]
  have e1 : stage w col u 1 = (col 1 - u) * w + col 0 := rfl
  have e0 : stage w col u 0 = u := rfl
  rw [e1, e0]
  have : ((a0 :: a1 :: as).map (· / a0)).getD 0 0 = 1 := by simp [ha]
  rw [this]
  linear_combination hu'

theorem chainTap_div (w c : K) (k : ℕ) (vs : List K) :
    chainTap w k (vs.map (· / c)) = chainTap w k vs / c := by
  induction k generalizing vs with
  | zero => cases vs <;> simp [chainTap]
  | succ k ih =>
    induction vs with
    | nil => simp [chainTap_nil]
    | cons v vs ihv =>
      rw [List.map_cons, chainTap_succ, chainTap_succ, ihv, ih, ← List.map_cons (f := (· / c)), ih]
      ring

theorem warpedSum_div (w c : K) (b vs : List K) :
    warpedSum w (b.map (· / c)) vs = warpedSum w b (vs.map (· / c)) := by
  unfold warpedSum
  rw [List.length_map]
  refine Finset.sum_congr rfl fun k _ => ?_
  rw [chainTap_div]
  have : (b.map (· / c)).getD k 0 = b.getD k 0 / c := by
    by_cases hk : k < b.length
    · simp [hk]
    · simp [not_lt.1 hk]
  rw [this]; ring

/-- A warped sum is affine in the most recent sample. -/
theorem warpedSum_cons (w : K) (a : List K) (u : K) (us : List K) :
    warpedSum w a (u :: us) = (∑ k ∈ Finset.range a.length, a.getD k 0 * (-w) ^ k) * u
      + warpedSum w a (0 :: us) := by
  have key : ∀ k, chainTap w k (u :: us) = (-w) ^ k * u + chainTap w k (0 :: us) := by
    intro k
    induction k with
    | zero => simp [chainTap]
    | succ k ih => rw [chainTap_succ, chainTap_succ, ih]; ring
  unfold warpedSum
  rw [Finset.sum_mul, ← Finset.sum_add_distrib]
  exact Finset.sum_congr rfl fun k _ => by rw [key]; ring

end Verif.Warped
