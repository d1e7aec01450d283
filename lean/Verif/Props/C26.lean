import Verif.Lemmas.AR
import Mathlib.Algebra.Order.Ring.Rat
import Mathlib.Algebra.Field.Rat
import Mathlib.Algebra.Order.Field.Rat
import Mathlib.Tactic.NormNum

/-!
# C26: the recursion of Levinson and Durbin solves the Yule-Walker equations
-/

set_option linter.unusedSectionVars false

namespace Verif.AR

variable {K : Type} [Field K] [LinearOrder K]

/-- `∑ⱼ a_j R_|i-j|`, written directly on the lists of coefficients and of autocorrelation
values. -/
def yuleWalkerSum (a R : List K) (i : ℕ) : K :=
  ∑ j ∈ Finset.range a.length, a.getD j 0 * R.getD (if j ≤ i then i - j else j - i) 0

/-- Whenever the recursion returns, there is one coefficient per lag, the first is 1, the
normal equations hold for every lag `1 … p` and the sum at lag 0 is the returned prediction
error. -/
theorem C26_yule_walker (R a : List K) (E : K) (h : levinson R = .ok (a, E)) :
    a.length = R.length ∧ a.getD 0 0 = 1 ∧
    (∀ i, 1 ≤ i → i < R.length → yuleWalkerSum a R i = 0) ∧
    yuleWalkerSum a R 0 = E := by
  cases R with
  | nil => exact absurd h (by simp [levinson])
  | cons r0 c =>
    simp only [levinson] at h
    cases hl : loop (fun j => c.getD j 0) r0 c.length with
    | error e => rw [hl] at h; exact absurd h (by simp)
    | ok s =>
      rw [hl] at h
      obtain ⟨ar, E'⟩ := s
      have h' := Except.ok.inj h
      rw [Prod.mk.injEq] at h'
      obtain ⟨ha, hE⟩ := h'
      subst ha hE
      have inv := inv_loop r0 _ _ _ hl
      have hlen : (1 :: (List.range c.length).map ar).length = c.length + 1 := by simp
      have key : ∀ i ≤ c.length, yuleWalkerSum (1 :: (List.range c.length).map ar) (r0 :: c) i =
          normalSum (lagOf r0 fun j => c.getD j 0) (withOne ar) c.length i := by
        intro i hi
        unfold yuleWalkerSum normalSum
        rw [hlen]
        refine Finset.sum_congr rfl fun j hj => ?_
        have hj' := Finset.mem_range.mp hj
        congr 1
        · cases j with
          | zero => rfl
          | succ j =>
            have : j < c.length := by omega
            simp [withOne, List.getD_eq_getElem?_getD, this]
        · have e1 : (if j ≤ i then i - j else j - i) = max i j - min i j := by
            split_ifs <;> omega
          rw [e1]
          generalize max i j - min i j = d
          cases d <;> rfl
      refine ⟨by simp, rfl, ?_, ?_⟩
      · intro i h1 h2
        rw [key i (by simp at h2; omega)]
        exact inv.normal i h1 (by simp at h2; omega)
      · rw [key 0 (by omega)]
        exact inv.error

/-- The recursion is order-recursive: the values for a shorter autocorrelation are obtained
by the same passes, so the equations hold at every order on the way. -/
theorem C26_every_order (c : ℕ → K) (r0 : K) (n m : ℕ) (hm : m ≤ n) (s : (ℕ → K) × K)
    (h : loop c r0 n = .ok s) : ∃ s', loop c r0 m = .ok s' ∧
      (∀ i, 1 ≤ i → i ≤ m → normalSum (lagOf r0 c) (withOne s'.1) m i = 0) ∧
      normalSum (lagOf r0 c) (withOne s'.1) m 0 = s'.2 := by
  induction n generalizing s with
  | zero =>
    have hm0 : m = 0 := by omega
    subst hm0
    exact ⟨s, h, (inv_loop r0 c _ s h).normal, (inv_loop r0 c _ s h).error⟩
  | succ n ih =>
    by_cases hmn : m = n + 1
    · subst hmn
      exact ⟨s, h, (inv_loop r0 c _ s h).normal, (inv_loop r0 c _ s h).error⟩
    · rw [loop_succ] at h
      cases hl : loop c r0 n with
      | error e => rw [hl] at h; exact absurd h (by simp [Except.bind])
      | ok s0 => exact ih (by omega) s0 hl

variable [IsStrictOrderedRing K]

theorem loop_error_bounds (c : ℕ → K) (r0 : K) (h0 : 0 < r0) : ∀ n s, loop c r0 n = .ok s →
    0 < s.2 ∧ s.2 ≤ r0
  | 0, s, h => by
    have : s = (fun _ => 0, r0) := (Except.ok.inj h).symm
    subst this
    exact ⟨h0, le_rfl⟩
  | n + 1, s, h => by
    rw [loop_succ] at h
    cases hl : loop c r0 n with
    | error e => rw [hl] at h; exact absurd h (by simp [Except.bind])
    | ok s0 =>
      rw [hl] at h
      obtain ⟨h1, h2⟩ := loop_error_bounds c r0 h0 n s0 hl
      obtain ⟨_, k, -, hk, hpos⟩ := inv_step r0 c n s0 s (inv_loop r0 c n s0 hl) h
      refine ⟨not_le.mp hpos, le_trans ?_ h2⟩
      rw [hk]
      nlinarith [sq_nonneg k]

/-- The prediction error returned for a sequence with positive variance is positive and not
larger than the variance. -/
theorem C26_error_bounds (R a : List K) (E : K) (h : levinson R = .ok (a, E))
    (h0 : 0 < R.getD 0 0) : 0 < E ∧ E ≤ R.getD 0 0 := by
  cases R with
  | nil => exact absurd h (by simp [levinson])
  | cons r0 c =>
    simp only [levinson] at h
    cases hl : loop (fun j => c.getD j 0) r0 c.length with
    | error e => rw [hl] at h; exact absurd h (by simp)
    | ok s =>
      rw [hl] at h
      have h' := Except.ok.inj h
      rw [Prod.mk.injEq] at h'
      rw [← h'.2]
      exact loop_error_bounds _ r0 h0 _ s hl

/-- For the autocorrelation of a signal with a non-zero sample no pass aborts. -/
theorem loop_autocorr (x : List K) (hx : ∃ n, x.getD n 0 ≠ 0) : ∀ n,
    ∃ s, loop (fun j => autocorr x (j + 1)) (autocorr x 0) n = .ok s ∧ 0 < s.2 := by
  have hne : x ≠ [] := by
    rintro rfl
    obtain ⟨n, hn⟩ := hx
    simp at hn
  have hN : (0 : K) < x.length := by
    have : 0 < x.length := List.length_pos_of_ne_nil hne
    exact_mod_cast this
  have hlag : lagOf (autocorr x 0) (fun j => autocorr x (j + 1)) = autocorr x := by
    funext d
    cases d <;> rfl
  have hpos : ∀ n s, Inv (autocorr x 0) (fun j => autocorr x (j + 1)) n s → 0 < s.2 := by
    intro n s inv
    have hq := quad_form x hne n (withOne s.1)
    have hp := filtered_pos x hx n (withOne s.1) rfl
    rw [hq, Finset.sum_range_succ'] at hp
    have hz : ∑ i ∈ Finset.range n, withOne s.1 (i + 1) *
        normalSum (autocorr x) (withOne s.1) n (i + 1) = 0 := by
      refine Finset.sum_eq_zero fun i hi => ?_
      have := Finset.mem_range.mp hi
      have h2 := inv.normal (i + 1) (by omega) (by omega)
      rw [hlag] at h2
      rw [h2, mul_zero]
    have he := inv.error
    rw [hlag] at he
    rw [hz, zero_add, he] at hp
    have h1 : withOne s.1 0 = 1 := rfl
    rw [h1, one_mul] at hp
    exact (mul_pos_iff_of_pos_left hN).mp hp
  intro n
  induction n with
  | zero => exact ⟨_, rfl, hpos 0 _ (inv_init _ _)⟩
  | succ n ih =>
    obtain ⟨s, hs, hs0⟩ := ih
    have hinv := inv_new _ _ n s (inv_loop _ _ n s hs) hs0.ne'
    have hE := hpos (n + 1) _ hinv
    refine ⟨_, ?_, hE⟩
    rw [loop_succ, hs]
    exact (step_ok_iff _ n s _).mpr ⟨hs0.ne', not_le.mpr hE, rfl⟩

/-- For every signal with a non-zero sample and every order below its length the estimation
returns `order + 1` coefficients and a positive error: it never aborts. -/
theorem C26_never_aborts (x : List K) (hx : ∃ n, x.getD n 0 ≠ 0) (order : ℕ)
    (ho : order < x.length) :
    ∃ a E, yuleWalker x order = .ok (a, E) ∧ a.length = order + 1 ∧ 0 < E ∧
      ∀ i, 1 ≤ i → i ≤ order →
        ∑ j ∈ Finset.range (order + 1),
          a.getD j 0 * autocorr x (if j ≤ i then i - j else j - i) = 0 := by
  have hmin : min (order + 1) x.length = order + 1 := by omega
  obtain ⟨s, hs, hpos⟩ := loop_autocorr x hx order
  have hval : yuleWalker x order = .ok (1 :: (List.range order).map s.1, s.2) := by
    unfold yuleWalker
    rw [hmin, List.range_succ_eq_map, List.map_cons, List.map_map]
    simp only [levinson, List.length_map, List.length_range]
    have hc : loop (fun j => ((List.range order).map (autocorr x ∘ Nat.succ)).getD j 0)
        (autocorr x 0) order = .ok s := by
      rw [← hs]
      refine loop_congr _ _ _ _ fun j hj => ?_
      simp [List.getD_eq_getElem?_getD, hj]
    rw [hc]
  refine ⟨_, _, hval, by simp, hpos, ?_⟩
  intro i h1 h2
  have hyw := (C26_yule_walker _ _ _ (show levinson _ = _ from hval)).2.2.1 i h1
    (by simp; omega)
  refine Eq.trans ?_ hyw
  unfold yuleWalkerSum
  have hlen : (1 :: (List.range order).map s.1).length = order + 1 := by simp
  rw [hlen]
  refine Finset.sum_congr rfl fun j hj => ?_
  have hj' := Finset.mem_range.mp hj
  congr 1
  rw [hmin]
  have hd : (if j ≤ i then i - j else j - i) < order + 1 := by split_ifs <;> omega
  generalize (if j ≤ i then i - j else j - i) = d at hd
  simp [List.getD_eq_getElem?_getD, hd]

/-- With an order that reaches the length of the signal a one-dimensional array silently
yields fewer coefficients than asked for. -/
theorem C26_long_order_short_result (x : List K) (hx : ∃ n, x.getD n 0 ≠ 0) (order : ℕ)
    (ho : x.length ≤ order) :
    ∃ a E, yuleWalker x order = .ok (a, E) ∧ a.length = x.length := by
  have hN : 0 < x.length := by
    obtain ⟨n, hn⟩ := hx
    by_contra h
    exact hn (List.getD_eq_default _ _ (by omega))
  have hsame : yuleWalker x order = yuleWalker x (x.length - 1) := by
    unfold yuleWalker
    have : min (order + 1) x.length = min (x.length - 1 + 1) x.length := by omega
    rw [this]
  obtain ⟨a, E, h1, h2, -⟩ := C26_never_aborts x hx (x.length - 1) (by omega)
  exact ⟨a, E, by rw [hsame, h1], by omega⟩

/-- Concrete case: order 2 for a signal with four samples. -/
example : ∃ a : List ℚ, ∃ E, yuleWalker ([1, 2, 0, -1] : List ℚ) 2 = .ok (a, E) ∧ a.length = 3 ∧ 0 < E := by
  obtain ⟨a, E, h, h1, h2, -⟩ := C26_never_aborts ([1, 2, 0, -1] : List ℚ) ⟨0, by norm_num⟩ 2 (by simp)
  exact ⟨a, E, h, h1, h2⟩

/-- Concrete case: the recursion returns and the equations are not trivial. -/
example : ∃ E, levinson [(2 : ℚ), 1, 1] = .ok ([1, -(1/3), -(1/3)], E) := by
  exact ⟨4/3, by decide +kernel⟩

/-- Concrete case: the recursion aborts for a sequence that is no autocorrelation. -/
example : levinson [(1 : ℚ), 2] = .error .valueError := by decide +kernel

end Verif.AR
