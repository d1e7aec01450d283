import Verif.Model.Lattice
import Verif.Lemmas.Channels
import Verif.Lemmas.DifferenceEq
import Mathlib.Algebra.BigOperators.Intervals
import Mathlib.Algebra.BigOperators.Ring.Finset
import Mathlib.Data.List.GetD
import Mathlib.Tactic.Ring
import Mathlib.Tactic.LinearCombination
import Mathlib.Tactic.FieldSimp

/-! Helper lemmas for lattice filters. -/

namespace Verif.Lattice

variable {K : Type} [Field K]

/-- Convolution value with coefficients given by a function. -/
def conv (P : ℕ → K) (xs : List K) : K := ∑ i ∈ Finset.range xs.length, P i * xs.getD i 0

/-- Delay of a coefficient sequence. -/
def sh (P : ℕ → K) : ℕ → K
  | 0 => 0
  | m + 1 => P m

def delta : ℕ → K := fun m => if m = 0 then 1 else 0

/-- Forward polynomial of the lattice of order `i` together with the backward one. -/
def AG (k : ℕ → K) : ℕ → (ℕ → K) × (ℕ → K)
  | 0 => (delta, delta)
  | i + 1 => (fun m => (AG k i).1 m - k i * sh (AG k i).2 m,
      fun m => sh (AG k i).2 m - k i * (AG k i).1 m)

theorem conv_nil (P : ℕ → K) : conv P [] = 0 := by simp [conv]

theorem conv_delta (x : K) (xs : List K) : conv delta (x :: xs) = x := by
  unfold conv
  rw [List.length_cons, Finset.sum_range_succ']
  simp [delta]

theorem conv_sh (P : ℕ → K) (x : K) (xs : List K) : conv (sh P) (x :: xs) = conv P xs := by
  unfold conv
  rw [List.length_cons, Finset.sum_range_succ']
  simp [sh]

theorem conv_sub (P Q : ℕ → K) (c : K) (xs : List K) :
    conv (fun m => P m - c * Q m) xs = conv P xs - c * conv Q xs := by
  unfold conv
  rw [Finset.mul_sum, ← Finset.sum_sub_distrib]
  exact Finset.sum_congr rfl fun i _ => by ring

theorem conv_eq_tapSum (P : ℕ → K) (b : List K) (hP : ∀ m, P m = b.getD m 0) (xs : List K) :
    conv P xs = tapSum b xs := by
  unfold conv tapSum
  have h1 : ∑ i ∈ Finset.range xs.length, P i * xs.getD i 0
      = ∑ i ∈ Finset.range (max xs.length b.length), P i * xs.getD i 0 := by
    refine Finset.sum_subset (Finset.range_mono (le_max_left _ _)) fun i _ hi => ?_
    rw [List.getD_eq_default xs _ (by simpa using hi), mul_zero]
  have h2 : ∑ i ∈ Finset.range b.length, b.getD i 0 * xs.getD i 0
      = ∑ i ∈ Finset.range (max xs.length b.length), P i * xs.getD i 0 := by
    rw [Finset.sum_congr rfl fun i _ => by rw [← hP i]]
    refine Finset.sum_subset (Finset.range_mono (le_max_right _ _)) fun i _ hi => ?_
    rw [hP, List.getD_eq_default b _ (by simpa using hi), zero_mul]
  rw [h1, h2]

theorem conv_A_succ (k : ℕ → K) (i : ℕ) (x : K) (xs : List K) :
    conv (AG k (i + 1)).1 (x :: xs)
      = conv (AG k i).1 (x :: xs) - k i * conv (AG k i).2 xs := by
  rw [AG, conv_sub, conv_sh]

theorem conv_G_succ (k : ℕ → K) (i : ℕ) (x : K) (xs : List K) :
    conv (AG k (i + 1)).2 (x :: xs)
      = conv (AG k i).2 xs - k i * conv (AG k i).1 (x :: xs) := by
  rw [AG, conv_sub, conv_sh]

/-! ### FIR lattice -/

theorem firLoop_spec (k : ℕ → K) (N : ℕ) (st : ℕ → K) (x : K) (xs : List K)
    (hst : ∀ r < N, st r = conv (AG k r).2 xs) (n : ℕ) (hn : n ≤ N) :
    (firLoop k ⟨st, x, x⟩ n).xo = conv (AG k n).1 (x :: xs) ∧
    (firLoop k ⟨st, x, x⟩ n).s0 = conv (AG k n).2 (x :: xs) ∧
    ∀ r, (firLoop k ⟨st, x, x⟩ n).st r
      = if r < n then conv (AG k r).2 (x :: xs) else st r := by
  induction n with
  | zero =>
    refine ⟨?_, ?_, fun r => by simp [firLoop]⟩ <;> simp [firLoop, AG, conv_delta]
  | succ n ih =>
    obtain ⟨h1, h2, h3⟩ := ih (by omega)
    have hs : (firLoop k ⟨st, x, x⟩ n).st n = conv (AG k n).2 xs := by
      rw [h3 n, if_neg (lt_irrefl n), hst n (by omega)]
    refine ⟨?_, ?_, fun r => ?_⟩
    · simp only [firLoop, firBody, hs, h1, conv_A_succ]; ring
    · simp only [firLoop, firBody, hs, h1, conv_G_succ]; ring
    · simp only [firLoop, firBody, h2, h3]
      by_cases hr : r = n
      · simp [hr]
      · by_cases hr2 : r < n
        · have : r < n + 1 := by omega
          simp [hr, hr2, this]
        · have : ¬ r < n + 1 := by omega
          simp [hr, hr2, this]

theorem fir_colAfter (k : ℕ → K) (N : ℕ) (xs : List K) :
    ∀ r < N, (firColumn k N).colAfter xs r = conv (AG k r).2 xs := by
  induction xs with
  | nil => intro r _; rw [conv_nil]; rfl
  | cons x xs ih =>
    intro r hr
    have h := (firLoop_spec k N _ x xs ih N le_rfl).2.2 r
    rw [if_pos hr] at h
    exact h

theorem fir_out (k : ℕ → K) (N : ℕ) (xs : List K) (x : K) :
    (firColumn k N).out xs x = conv (AG k N).1 (x :: xs) :=
  (firLoop_spec k N _ x xs (fir_colAfter k N xs) N le_rfl).1

/-! ### Coefficients -/

theorem AG_sym (k : ℕ → K) (i : ℕ) :
    (∀ m ≤ i, (AG k i).2 m = (AG k i).1 (i - m)) ∧ ∀ m, i < m → (AG k i).2 m = 0 ∧
      (AG k i).1 m = 0 := by
  induction i with
  | zero =>
    refine ⟨fun m hm => ?_, fun m hm => ?_⟩
    · have : m = 0 := by omega
      subst this; rfl
    · have hm0 : ¬ m = 0 := by omega
      simp [AG, delta, hm0]
  | succ i ih =>
    obtain ⟨h1, h2⟩ := ih
    refine ⟨fun m hm => ?_, fun m hm => ?_⟩
    · simp only [AG]
      rcases Nat.eq_zero_or_pos m with rfl | hm0
      · simp only [sh, Nat.sub_zero]
        rw [h1 i le_rfl, Nat.sub_self, (h2 (i + 1) (by omega)).2]
      · obtain ⟨m, rfl⟩ := Nat.exists_eq_succ_of_ne_zero hm0.ne'
        have e : i + 1 - m.succ = i - m := by omega
        rw [e]
        simp only [sh, Nat.succ_eq_add_one]
        rw [h1 m (by omega)]
        rcases Nat.eq_zero_or_pos (i - m) with h0 | h0
        · have : m = i := by omega
          subst this
          rw [h0, (h2 (m + 1) (by omega)).2]
        · obtain ⟨p, hp⟩ := Nat.exists_eq_succ_of_ne_zero h0.ne'
          rw [hp]
          simp only [Nat.succ_eq_add_one]
          rw [h1 p (by omega)]
          have : i - p = m + 1 := by omega
          rw [this]
    · simp only [AG]
      obtain ⟨m, rfl⟩ := Nat.exists_eq_succ_of_ne_zero (by omega : m ≠ 0)
      simp only [sh, Nat.succ_eq_add_one]
      rw [(h2 m (by omega)).1, (h2 (m + 1) (by omega)).2]
      simp

theorem aS_lower (top : ℕ → K) (N i m : ℕ) (hi : i + 1 < N) :
    aS top N i m = (aS top N (i + 1) m + refl top N (i + 1) * aS top N (i + 1) (i - m))
      / (1 - refl top N (i + 1) ^ 2) := by
  unfold refl aS
  have e : N - 1 - i = (N - 1 - (i + 1)) + 1 := by omega
  rw [e, rows]
  have : N - 2 - (N - 1 - (i + 1)) = i := by omega
  simp only [this]

/-- The lattice built from the step-down recursion has the prescribed polynomial at
every order. -/
theorem AG_refl (top : ℕ → K) (N : ℕ)
    (hd : ∀ i, 1 ≤ i → i < N → 1 - refl top N i ^ 2 ≠ 0) (i : ℕ) (hi : i < N) (m : ℕ)
    (hm : m ≤ i + 1) :
    (AG (refl top N) (i + 1)).1 m = if m = 0 then 1 else - aS top N i (m - 1) := by
  induction i generalizing m with
  | zero =>
    simp only [AG]
    match m, hm with
    | 0, _ => simp [delta, sh]
    | 1, _ => simp [delta, sh, refl]
  | succ i ih =>
    have ih' := fun m hm => ih (by omega) m hm
    rw [AG]
    simp only
    obtain ⟨hs1, hs2⟩ := AG_sym (refl top N) (i + 1)
    match m, hm with
    | 0, _ => simp only [sh]; rw [ih' 0 (by omega)]; simp
    | m + 1, hm =>
      simp only [sh, Nat.add_sub_cancel]
      rw [hs1 m (by omega)]
      rcases Nat.lt_or_ge m (i + 1) with hlt | hge
      · have e : i + 1 - m = (i - m) + 1 := by omega
        rw [ih' (m + 1) (by omega), e, ih' ((i - m) + 1) (by omega)]
        simp only [Nat.add_sub_cancel, Nat.add_eq_zero_iff, one_ne_zero, and_false, if_false]
        rw [aS_lower top N i m (by omega), aS_lower top N i (i - m) (by omega)]
        have e2 : i - (i - m) = m := by omega
        rw [e2]
        have := hd (i + 1) (by omega) (by omega)
        field_simp
        ring
      · have : m = i + 1 := by omega
        subst this
        rw [(hs2 (i + 1 + 1) (by omega)).2, Nat.sub_self, ih' 0 (by omega)]
        simp [refl]

theorem A_refl_getD (a : List K) (ha0 : a.getD 0 0 = 1) (ha : 2 ≤ a.length)
    (hd : ∀ i, 1 ≤ i → i < a.length - 1 →
      1 - refl (fun m => - a.getD (m + 1) 0) (a.length - 1) i ^ 2 ≠ 0) (m : ℕ) :
    (AG (refl (fun m => - a.getD (m + 1) 0) (a.length - 1)) (a.length - 1)).1 m = a.getD m 0 := by
  obtain ⟨n, hn⟩ : ∃ n, a.length - 1 = n + 1 := ⟨a.length - 2, by omega⟩
  rw [hn] at hd ⊢
  by_cases hm : m ≤ n + 1
  · rw [AG_refl _ (n + 1) hd n (by omega) m hm]
    split
    · rename_i h; rw [h, ha0]
    · have : aS (fun m => - a.getD (m + 1) 0) (n + 1) n (m - 1) = - a.getD m 0 := by
        unfold aS
        have e : n + 1 - 1 - n = 0 := by omega
        have e2 : m - 1 + 1 = m := by omega
        rw [e, rows, e2]
      rw [this, neg_neg]
  · rw [((AG_sym _ (n + 1)).2 m (by omega)).2, List.getD_eq_default _ _ (by omega)]

/-! ### IIR lattice -/

theorem iirLoop_spec (k c : ℕ → K) (N : ℕ) (us : List K) (i : ℕ) (t : IIRLoop K) (hi : i ≤ N)
    (hst : ∀ r < i, t.st r = conv (AG k r).2 us) :
    t.x = conv (AG k i).1 ((iirLoop k c N i t).x :: us) ∧
    (iirLoop k c N i t).low = t.low
      + ∑ j ∈ Finset.range i, c (j + 1) * conv (AG k (j + 1)).2 ((iirLoop k c N i t).x :: us) ∧
    ∀ r, (iirLoop k c N i t).st r = if 1 ≤ r ∧ r ≤ i ∧ r < N
      then conv (AG k r).2 ((iirLoop k c N i t).x :: us) else t.st r := by
  induction i generalizing t with
  | zero =>
    refine ⟨by simp [iirLoop, AG, conv_delta], by simp [iirLoop], fun r => ?_⟩
    have : ¬ (1 ≤ r ∧ r ≤ 0 ∧ r < N) := by omega
    rw [if_neg this]; rfl
  | succ i ih =>
    have hst' : ∀ r < i, (iirBody k c N i t).st r = conv (AG k r).2 us := by
      intro r hr
      simp only [iirBody]
      split
      · have : r ≠ i + 1 := by omega
        simp only [this, if_false]
        exact hst r (by omega)
      · exact hst r (by omega)
    obtain ⟨h1, h2, h3⟩ := ih (iirBody k c N i t) (by omega) hst'
    have hsi : t.st i = conv (AG k i).2 us := hst i (by omega)
    set u := (iirLoop k c N (i + 1) t).x with hu
    have hu' : (iirLoop k c N i (iirBody k c N i t)).x = u := rfl
    rw [hu'] at h1 h2 h3
    have hx1 : t.x + t.st i * k i = conv (AG k i).1 (u :: us) := h1
    have hs : (t.x + t.st i * k i) * -(k i) + t.st i = conv (AG k (i + 1)).2 (u :: us) := by
      rw [conv_G_succ, hx1, hsi]; ring
    refine ⟨?_, ?_, fun r => ?_⟩
    · rw [conv_A_succ, ← hx1, hsi]; ring
    · show (iirLoop k c N i (iirBody k c N i t)).low = _
      rw [h2, Finset.sum_range_succ]
      have : (iirBody k c N i t).low = t.low + conv (AG k (i + 1)).2 (u :: us) * c (i + 1) := by
        rw [← hs]; rfl
      rw [this]; ring
    · show (iirLoop k c N i (iirBody k c N i t)).st r = _
      rw [h3]
      by_cases hr : 1 ≤ r ∧ r ≤ i ∧ r < N
      · have hr' : 1 ≤ r ∧ r ≤ i + 1 ∧ r < N := by omega
        simp only [hr, hr', if_true, and_self]
      · rw [if_neg hr]
        by_cases hri : r = i + 1
        · by_cases hN : i ≠ N - 1
          · have hr' : 1 ≤ r ∧ r ≤ i + 1 ∧ r < N := by omega
            rw [if_pos hr', hri, ← hs]
            simp [iirBody, hN]
          · have hr' : ¬ (1 ≤ r ∧ r ≤ i + 1 ∧ r < N) := by omega
            rw [if_neg hr']
            simp [iirBody, hN]
        · have hr' : ¬ (1 ≤ r ∧ r ≤ i + 1 ∧ r < N) := by omega
          rw [if_neg hr']
          simp only [iirBody]
          split
          · simp [hri]
          · rfl

/-- Signal `f_0` inside the lattice (most recent first). -/
def inner (k c : ℕ → K) (N : ℕ) : List K → List K
  | [] => []
  | x :: xs => (iirLoop k c N N ⟨(iirColumn k c N).colAfter xs, x, 0⟩).x :: inner k c N xs

theorem inner_length (k c : ℕ → K) (N : ℕ) (xs : List K) :
    (inner k c N xs).length = xs.length := by
  induction xs with
  | nil => rfl
  | cons x xs ih => simp [inner, ih]

theorem iir_colAfter (k c : ℕ → K) (N : ℕ) (xs : List K) :
    ∀ r < N, (iirColumn k c N).colAfter xs r = conv (AG k r).2 (inner k c N xs) := by
  induction xs with
  | nil => intro r _; rw [inner, conv_nil]; rfl
  | cons x xs ih =>
    intro r hr
    obtain ⟨_, _, h3⟩ := iirLoop_spec k c N (inner k c N xs) N
      ⟨(iirColumn k c N).colAfter xs, x, 0⟩ le_rfl ih
    show (if r = 0 then _ else _) = _
    split
    · rename_i h0; subst h0
      rw [inner, AG, conv_delta]
    · rename_i h0
      rw [h3 r, if_pos ⟨by omega, by omega, hr⟩]
      rfl

theorem iir_input (k c : ℕ → K) (N : ℕ) (x : K) (xs : List K) :
    x = conv (AG k N).1 (inner k c N (x :: xs)) :=
  (iirLoop_spec k c N (inner k c N xs) N
      ⟨(iirColumn k c N).colAfter xs, x, 0⟩ le_rfl (iir_colAfter k c N xs)).1

theorem iir_out (k c : ℕ → K) (N : ℕ) (x : K) (xs : List K) :
    (iirColumn k c N).out xs x
      = ∑ i ∈ Finset.range (N + 1), c i * conv (AG k i).2 (inner k c N (x :: xs)) := by
  obtain ⟨_, h2, _⟩ := iirLoop_spec k c N (inner k c N xs) N
      ⟨(iirColumn k c N).colAfter xs, x, 0⟩ le_rfl (iir_colAfter k c N xs)
  show (iirLoop k c N N ⟨(iirColumn k c N).colAfter xs, x, 0⟩).x * c 0
    + (iirLoop k c N N ⟨(iirColumn k c N).colAfter xs, x, 0⟩).low = _
  rw [h2, Finset.sum_range_succ', inner, AG, conv_delta]
  ring

/-! ### Ladder coefficients -/

theorem ladderLoop_spec (b : List K) (as : ℕ → ℕ → K) (n : ℕ) (hn : n ≤ b.length) :
    ∀ m, b.length - n ≤ m → m < b.length →
      ladderLoop b as n m = b.getD m 0
        + ∑ i ∈ Finset.Ico (m + 1) b.length, ladderLoop b as n i * as (i - 1) (i - 1 - m) := by
  induction n with
  | zero => intro m h1 h2; omega
  | succ n ih =>
    intro m h1 h2
    have hold : ∀ i, b.length - n ≤ i → ladderLoop b as (n + 1) i = ladderLoop b as n i := by
      intro i hi
      simp only [ladderLoop]
      rw [if_neg (by omega)]
    have hsum : ∑ i ∈ Finset.Ico (m + 1) b.length,
          ladderLoop b as (n + 1) i * as (i - 1) (i - 1 - m)
        = ∑ i ∈ Finset.Ico (m + 1) b.length, ladderLoop b as n i * as (i - 1) (i - 1 - m) := by
      refine Finset.sum_congr rfl fun i hi => ?_
      rw [Finset.mem_Ico] at hi
      rw [hold i (by omega)]
    rw [hsum]
    by_cases hm : m = b.length - 1 - n
    · simp only [ladderLoop]
      rw [if_pos hm, ← hm]
    · rw [hold m (by omega)]
      exact ih (by omega) m (by omega) h2

/-- The ladder combination of the backward polynomials gives the numerator. -/
theorem ladder_numerator (b : List K) (top : ℕ → K) (N : ℕ) (hb : b.length = N + 1)
    (hd : ∀ i, 1 ≤ i → i < N → 1 - refl top N i ^ 2 ≠ 0) (m : ℕ) :
    ∑ i ∈ Finset.range (N + 1), ladderLoop b (aS top N) b.length i * (AG (refl top N) i).2 m
      = b.getD m 0 := by
  set c := ladderLoop b (aS top N) b.length with hc
  by_cases hm : m < N + 1
  · have hcm := ladderLoop_spec b (aS top N) b.length le_rfl m (by omega) (by omega)
    rw [← hc, hb] at hcm
    have hG : ∀ i ∈ Finset.range (N + 1), c i * (AG (refl top N) i).2 m
        = if i = m then c i else if m < i then - (c i * aS top N (i - 1) (i - 1 - m)) else 0 := by
      intro i hi
      rw [Finset.mem_range] at hi
      obtain ⟨h1, h2⟩ := AG_sym (refl top N) i
      rcases Nat.lt_trichotomy i m with h | h | h
      · rw [if_neg (by omega), if_neg (by omega), (h2 m h).1, mul_zero]
      · subst h
        rw [if_pos rfl, h1 i le_rfl, Nat.sub_self]
        cases i with
        | zero => simp [AG, delta]
        | succ i => rw [AG_refl top N hd i (by omega) 0 (by omega)]; simp
      · rw [if_neg (by omega), if_pos h, h1 m (by omega)]
        obtain ⟨i, rfl⟩ := Nat.exists_eq_succ_of_ne_zero (by omega : i ≠ 0)
        rw [Nat.succ_eq_add_one, AG_refl top N hd i (by omega) (i + 1 - m) (by omega),
          if_neg (by omega)]
        have : i + 1 - m - 1 = i + 1 - 1 - m := by omega
        rw [this, Nat.add_sub_cancel]; ring
    rw [Finset.sum_congr rfl hG]
    have hsplit : ∀ i, (if i = m then c i else if m < i then
          - (c i * aS top N (i - 1) (i - 1 - m)) else 0)
        = (if i = m then c i else 0)
          - (if m < i then c i * aS top N (i - 1) (i - 1 - m) else 0) := by
      intro i
      by_cases h : i = m
      · subst h; simp
      · by_cases h' : m < i <;> simp [h, h']
    rw [Finset.sum_congr rfl fun i _ => hsplit i, Finset.sum_sub_distrib, Finset.sum_ite_eq',
      if_pos (Finset.mem_range.2 hm), ← Finset.sum_filter]
    have : (Finset.range (N + 1)).filter (fun i => m < i) = Finset.Ico (m + 1) (N + 1) := by
      ext i; simp only [Finset.mem_filter, Finset.mem_range, Finset.mem_Ico]; omega
    rw [this, hcm]; ring
  · rw [List.getD_eq_default _ _ (by omega)]
    refine Finset.sum_eq_zero fun i hi => ?_
    rw [Finset.mem_range] at hi
    rw [((AG_sym _ i).2 m (by omega)).1, mul_zero]

theorem conv_sum (N : ℕ) (c : ℕ → K) (P : ℕ → ℕ → K) (xs : List K) :
    ∑ i ∈ Finset.range N, c i * conv (P i) xs
      = conv (fun m => ∑ i ∈ Finset.range N, c i * P i m) xs := by
  unfold conv
  simp only [Finset.mul_sum, Finset.sum_mul]
  rw [Finset.sum_comm]
  exact Finset.sum_congr rfl fun i _ => Finset.sum_congr rfl fun j _ => by ring

/-- Difference equation of a column filter with an inner signal. -/
theorem column_solvesDE (C : Column K) (b a : List K) (w : List K → List K)
    (hw0 : w [] = []) (hw : ∀ x xs, ∃ u, w (x :: xs) = u :: w xs)
    (hin : ∀ x xs, tapSum a (w (x :: xs)) = x)
    (hout : ∀ x xs, C.out xs x = tapSum b (w (x :: xs))) (xs : List K) :
    SolvesDE b a xs (C.outs xs) := by
  have hlen : ∀ xs, (w xs).length = xs.length := by
    intro xs
    induction xs with
    | nil => simp [hw0]
    | cons x xs ih => obtain ⟨u, hu⟩ := hw x xs; rw [hu]; simp [ih]
  have hx : ∀ xs, xs = (List.range (w xs).length).map fun j => tapSum a ((w xs).drop j) := by
    intro xs
    induction xs with
    | nil => simp [hw0]
    | cons x xs ih =>
      obtain ⟨u, hu⟩ := hw x xs
      have h0 := hin x xs
      rw [hu] at h0 ⊢
      rw [List.length_cons, List.range_succ_eq_map, List.map_cons, List.map_map, List.drop_zero, h0]
      congr 1
  have hy : ∀ xs, C.outs xs = (List.range (w xs).length).map fun j => tapSum b ((w xs).drop j) := by
    intro xs
    induction xs with
    | nil => simp [hw0, Column.outs]
    | cons x xs ih =>
      obtain ⟨u, hu⟩ := hw x xs
      have h0 := hout x xs
      rw [Column.outs, h0, ih, hu, List.length_cons, List.range_succ_eq_map, List.map_cons,
        List.map_map, List.drop_zero]
      congr 1
  have := solvesDE_of_inner b a (w xs)
  rw [← hx, ← hy] at this
  exact this

theorem iir_solvesDE (b a : List K) (hlen : b.length = a.length) (ha : 2 ≤ a.length)
    (ha0 : a.getD 0 0 = 1)
    (hd : ∀ i, 1 ≤ i → i < a.length - 1 →
      1 - refl (fun m => - a.getD (m + 1) 0) (a.length - 1) i ^ 2 ≠ 0) (xs : List K) :
    SolvesDE b a xs ((iirColumn (refl (fun m => - a.getD (m + 1) 0) (a.length - 1))
      (ladderLoop b (aS (fun m => - a.getD (m + 1) 0) (a.length - 1)) b.length)
      (a.length - 1)).outs xs) := by
  refine column_solvesDE _ b a (inner (refl (fun m => - a.getD (m + 1) 0) (a.length - 1))
      (ladderLoop b (aS (fun m => - a.getD (m + 1) 0) (a.length - 1)) b.length)
      (a.length - 1)) rfl (fun x xs => ⟨_, rfl⟩) (fun x xs => ?_) (fun x xs => ?_) xs
  · rw [← conv_eq_tapSum _ a (A_refl_getD a ha0 ha hd)]
    exact (iir_input _ _ _ x xs).symm
  · rw [iir_out, conv_sum]
    refine conv_eq_tapSum _ b (fun m => ?_) _
    have := ladder_numerator b (fun m => - a.getD (m + 1) 0) (a.length - 1) (by omega) hd m
    exact this

/-! ### Second-order sections -/

/-- One section alone. -/
def sectionColumn (S : Section K) : Column K := ⟨K × K, (0, 0), sosBody S⟩

theorem sos_colAfter (S : Section K) (Ss : List (Section K)) (xs : List K) :
    (sosColumn (S :: Ss)).colAfter xs
      = (sectionColumn S).colAfter xs :: (sosColumn Ss).colAfter ((sectionColumn S).outs xs) := by
  induction xs with
  | nil => rfl
  | cons x xs ih =>
    have : (sosColumn (S :: Ss)).colAfter (x :: xs)
        = (sosStep (S :: Ss) ((sosColumn (S :: Ss)).colAfter xs) x).2 := rfl
    rw [this, ih]
    rfl

theorem sos_outs (S : Section K) (Ss : List (Section K)) (xs : List K) :
    (sosColumn (S :: Ss)).outs xs = (sosColumn Ss).outs ((sectionColumn S).outs xs) := by
  induction xs with
  | nil => rfl
  | cons x xs ih =>
    have h1 : (sosColumn (S :: Ss)).outs (x :: xs)
        = (sosStep (S :: Ss) ((sosColumn (S :: Ss)).colAfter xs) x).1
          :: (sosColumn (S :: Ss)).outs xs := rfl
    rw [h1, sos_colAfter, ih]
    rfl

theorem sos_outs_nil (xs : List K) : (sosColumn ([] : List (Section K))).outs xs = xs := by
  induction xs with
  | nil => rfl
  | cons x xs ih =>
    have h1 : (sosColumn ([] : List (Section K))).outs (x :: xs)
        = (sosStep [] ((sosColumn ([] : List (Section K))).colAfter xs) x).1
          :: (sosColumn ([] : List (Section K))).outs xs := rfl
    rw [h1, ih]
    rfl

/-- Signal inside a section. -/
def sectionInner (S : Section K) : List K → List K
  | [] => []
  | x :: xs => (sosBody S ((sectionColumn S).colAfter xs) x).2.1 :: sectionInner S xs

theorem section_state (S : Section K) (xs : List K) :
    (sectionColumn S).colAfter xs = ((sectionInner S xs).getD 0 0,
      (sectionInner S xs).getD 1 0 - S.k0 * (sectionInner S xs).getD 0 0) := by
  induction xs with
  | nil => simp [sectionInner]; rfl
  | cons x xs ih =>
    have : (sectionColumn S).colAfter (x :: xs)
        = (sosBody S ((sectionColumn S).colAfter xs) x).2 := rfl
    rw [this]
    refine Prod.ext rfl ?_
    rw [sectionInner, List.getD_cons_succ, List.getD_cons_zero, ih]
    simp only [sosBody]
    ring

theorem tapSum_three (a b c : K) (us : List K) :
    tapSum [a, b, c] us = a * us.getD 0 0 + b * us.getD 1 0 + c * us.getD 2 0 := by
  simp [tapSum, Finset.sum_range_succ]

theorem section_solvesDE (s : Sos K) (ha0 : s.a0 = 1) (ha2 : 1 - s.a2 ^ 2 ≠ 0) (xs : List K) :
    SolvesDE [s.b0, s.b1, s.b2] [s.a0, s.a1, s.a2] xs ((sectionColumn (sectionOf s)).outs xs) := by
  have hD : 1 - (-s.a2) ^ 2 ≠ 0 := by simpa using ha2
  have hk : (sectionOf s).k0 * (1 + s.a2) = - s.a1 := by
    simp only [sectionOf]
    field_simp
    ring
  refine column_solvesDE _ _ _ (sectionInner (sectionOf s)) rfl (fun x xs => ⟨_, rfl⟩)
    (fun x xs => ?_) (fun x xs => ?_) xs
  · rw [tapSum_three, sectionInner, List.getD_cons_zero, List.getD_cons_succ, List.getD_cons_succ,
      section_state, ha0]
    simp only [sosBody]
    have hk1 : (sectionOf s).k1 = -s.a2 := rfl
    rw [hk1]
    linear_combination (sectionInner (sectionOf s) xs).getD 0 0 * hk
  · rw [tapSum_three, sectionInner, List.getD_cons_zero, List.getD_cons_succ, List.getD_cons_succ]
    show (sosBody (sectionOf s) ((sectionColumn (sectionOf s)).colAfter xs) x).1 = _
    rw [section_state]
    have hk1 : (sectionOf s).k1 = -s.a2 := rfl
    have hc2 : (sectionOf s).c2 = s.b2 := rfl
    have hc1 : (sectionOf s).c1 = s.b1 + s.b2 * -s.a1 := rfl
    have hc0 : (sectionOf s).c0 = s.b0 + (sectionOf s).c1 * (sectionOf s).k0
      + s.b2 * -s.a2 := rfl
    simp only [sosBody]
    rw [hc0, hc1, hc2, hk1]
    linear_combination (-s.b2 * (sectionInner (sectionOf s) xs).getD 0 0) * hk

end Verif.Lattice
