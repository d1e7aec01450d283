import Verif.Lemmas.Burg
import Mathlib.Algebra.Order.Ring.Rat
import Mathlib.Algebra.Field.Rat
import Mathlib.Algebra.Order.Field.Rat
import Mathlib.Algebra.Order.Ring.Abs
import Mathlib.Tactic.NormNum

/-!
# C27: reflection coefficients of Burg's method

Exact arithmetic; `eps` is the positive constant the code adds to the denominator.
-/

set_option linter.unusedSectionVars false

namespace Verif.AR

variable {K : Type} [Field K] [LinearOrder K]

/-- Invariant: the recursively updated denominator is at least the energy of the prediction
errors. -/
def DenInv (s : BurgState K) : Prop := s.f.length = s.b.length ∧ sq s.f + sq s.b ≤ s.den

variable [IsStrictOrderedRing K]

theorem refl_eq (eps : K) (heps : 0 < eps) (s : BurgState K) (h : DenInv s) :
    reflection eps s * (s.den + eps) = -2 * ip s.f s.b ∧ 0 < s.den + eps ∧ 0 ≤ s.den := by
  have h1 := sq_nonneg' s.f
  have h2 := sq_nonneg' s.b
  have h3 := h.2
  have hd : 0 ≤ s.den := by linarith
  have hde : 0 < s.den + eps := by linarith
  refine ⟨?_, hde, hd⟩
  have : (List.zipWith (· * ·) s.b s.f).sum = ip s.f s.b := ip_comm s.b s.f
  rw [reflection, this]
  field_simp

theorem refl_bound (eps : K) (heps : 0 < eps) (s : BurgState K) (h : DenInv s) :
    |reflection eps s| ≤ 1 := by
  obtain ⟨h1, h2, h3⟩ := refl_eq eps heps s h
  obtain ⟨h4, h5⟩ := ip_bound s.f s.b h.1
  have h6 := h.2
  rw [abs_le]
  constructor
  · by_contra hc
    have hc' : reflection eps s < -1 := not_le.mp hc
    nlinarith
  · by_contra hc
    have hc' : 1 < reflection eps s := not_le.mp hc
    nlinarith

theorem denInv_step (eps : K) (heps : 0 < eps) (s s' : BurgState K) (i : ℕ) (h : DenInv s)
    (hs : burgStep eps s i = .ok s') : DenInv s' ∧ s'.den ≤ s.den := by
  obtain ⟨bl, f0, hb, hf, rfl⟩ := (burgStep_ok_iff eps s s' i).mp hs
  obtain ⟨h1, h2, h3⟩ := refl_eq eps heps s h
  have hlen := h.1
  have h6 := h.2
  set k := reflection eps s with hk
  have e1 := sq_drop_one _ _ hf
  have e2 := sq_take _ _ hb
  rw [sq_axpy k _ _ hlen] at e1
  rw [sq_axpy k _ _ hlen.symm, ip_comm s.b s.f] at e2
  have l1 := length_axpy k hlen
  have l2 := length_axpy k hlen.symm
  refine ⟨⟨?_, ?_⟩, ?_⟩
  · simp only [List.length_drop, List.length_take]
    omega
  · show sq ((axpy s.f k s.b).drop 1) + sq ((axpy s.b k s.f).take ((axpy s.b k s.f).length - 1)) ≤
      (1 - k ^ 2) * s.den - bl ^ 2 - f0 ^ 2
    have hsum : sq ((axpy s.f k s.b).drop 1) +
        sq ((axpy s.b k s.f).take ((axpy s.b k s.f).length - 1)) =
        (1 + k ^ 2) * (sq s.f + sq s.b) + 4 * k * ip s.f s.b - bl ^ 2 - f0 ^ 2 := by
      linear_combination (-1 : K) * e1 - e2
    have hip : 4 * k * ip s.f s.b = -2 * k ^ 2 * (s.den + eps) := by
      linear_combination (2 * k) * h1
    rw [hsum, hip]
    nlinarith [mul_nonneg (add_nonneg zero_le_one (sq_nonneg k)) (sub_nonneg.mpr h6),
      mul_nonneg (sq_nonneg k) heps.le]
  · show (1 - k ^ 2) * s.den - bl ^ 2 - f0 ^ 2 ≤ s.den
    nlinarith [mul_nonneg (sq_nonneg k) h3, sq_nonneg bl, sq_nonneg f0]

theorem denInv_run (eps : K) (heps : 0 < eps) (x : List K) : ∀ n s, burgRun eps x n = .ok s →
    DenInv s := by
  refine burgRun_ind (fun _ s => DenInv s) ?_ fun n s s' h hs => (denInv_step eps heps s s' n h hs).1
  have hlen : (x.drop 1).length = (x.take (x.length - 1)).length := by simp
  refine ⟨hlen, ?_⟩
  show sq (x.drop 1) + sq (x.take (x.length - 1)) ≤
    (List.zipWith (fun u v => u ^ 2 + v ^ 2) (x.drop 1) (x.take (x.length - 1))).sum
  rw [sum_zip_sq _ _ hlen]

/-- For every signal and every pass the reflection coefficient has magnitude at most one. -/
theorem C27_reflection_bounded (eps : K) (heps : 0 < eps) (x : List K) (n : ℕ)
    (s : BurgState K) (h : burgRun eps x n = .ok s) : |reflection eps s| ≤ 1 :=
  refl_bound eps heps s (denInv_run eps heps x n s h)

/-- The estimate of the residual energy never grows with the order and is never negative. -/
theorem C27_residual_antitone (eps : K) (heps : 0 < eps) (x : List K) (m n : ℕ) (hmn : m ≤ n)
    (a a' : List K) (E E' : K) (h : burg eps x m false = .ok (a, E))
    (h' : burg eps x n false = .ok (a', E')) : 0 ≤ E' ∧ E' ≤ E := by
  have get : ∀ k a E, burg eps x k false = .ok (a, E) → ∃ s, burgRun eps x k = .ok s ∧ s.den = E := by
    intro k a E hk
    unfold burg at hk
    simp only [Bool.false_eq_true, if_false, lt_irrefl] at hk
    cases hr : burgRun eps x k with
    | error e => rw [hr] at hk; exact absurd hk (by simp)
    | ok s =>
      rw [hr] at hk
      have := Except.ok.inj hk
      rw [Prod.mk.injEq] at this
      exact ⟨s, rfl, this.2⟩
  obtain ⟨s, hs, rfl⟩ := get m a E h
  obtain ⟨s', hs', rfl⟩ := get n a' E' h'
  refine ⟨(refl_eq eps heps s' (denInv_run eps heps x n s' hs')).2.2, ?_⟩
  clear h h' get
  induction n generalizing s' with
  | zero =>
    have hm0 : m = 0 := by omega
    subst hm0
    rw [hs] at hs'
    rw [Except.ok.inj hs']
  | succ n ih =>
    by_cases hm : m = n + 1
    · subst hm
      rw [hs] at hs'
      rw [Except.ok.inj hs']
    · rw [burgRun_succ] at hs'
      cases hl : burgRun eps x n with
      | error e => rw [hl] at hs'; exact absurd hs' (by simp [Except.bind])
      | ok s0 =>
        rw [hl] at hs'
        exact le_trans (denInv_step eps heps s0 s' n (denInv_run eps heps x n s0 hl) hs').2
          (ih (by omega) s0 hl)

omit [IsStrictOrderedRing K] in
/-- For a one-dimensional signal every order below the number of samples gives `order + 1`
coefficients that start with 1. -/
theorem C27_total (eps : K) (x : List K) (order : ℕ) (h : order < x.length) :
    ∃ a E, burg eps x order false = .ok (a, E) ∧ a.length = order + 1 := by
  obtain ⟨s, hs⟩ := burgRun_total eps x order (.inl h)
  refine ⟨(List.range (order + 1)).map s.ar, s.den, ?_, by simp⟩
  unfold burg
  simp only [Bool.false_eq_true, if_false, lt_irrefl, hs]

/-- Invariant of the coefficients: they are the filter whose output is the prediction
error. -/
structure CoefInv (x : List K) (n : ℕ) (s : BurgState K) : Prop where
  one : s.ar 0 = 1
  prevOne : s.prev 0 = 1
  zero : ∀ j, n < j → s.ar j = 0
  prevZero : ∀ j, n < j → s.prev j = 0
  len : s.f.length = x.length - 1 - n ∧ s.b.length = x.length - 1 - n
  fwd : ∀ t, t < x.length - 1 - n → s.f.getD t 0 =
    ∑ j ∈ Finset.range (n + 1), s.ar j * x.getD (t + 1 + n - j) 0
  bwd : ∀ t, t < x.length - 1 - n → s.b.getD t 0 =
    ∑ j ∈ Finset.range (n + 1), s.ar j * x.getD (t + j) 0

omit [IsStrictOrderedRing K] in
theorem coefInv_run (eps : K) (x : List K) : ∀ n s, burgRun eps x n = .ok s →
    CoefInv x n s := by
  refine burgRun_ind (CoefInv x) ?_ ?_
  · refine ⟨rfl, rfl, ?_, ?_, by constructor <;> simp [burgInit], ?_, ?_⟩
    · intro j hj
      exact if_neg (by omega)
    · intro j hj
      exact if_neg (by omega)
    · intro t ht
      simp [burgInit, List.getD_eq_getElem?_getD, add_comm]
    · intro t ht
      have : t < x.length - 1 := by omega
      rw [Finset.sum_range_one]
      show (x.take (x.length - 1)).getD t 0 = 1 * x.getD t 0
      rw [one_mul, List.getD_eq_getElem?_getD, List.getElem?_take_of_lt this,
        List.getD_eq_getElem?_getD]
  · intro n s s' inv hs
    obtain ⟨bl, f0, -, -, rfl⟩ := (burgStep_ok_iff eps s s' n).mp hs
    set k := reflection eps s with hk
    have hlen := inv.len
    have l1 := length_axpy k (hlen.1.trans hlen.2.symm)
    have l2 := length_axpy k (hlen.2.trans hlen.1.symm)
    have hcoef := burg_coeff s.ar s.prev k n (n + 1) le_rfl
    have hnew : ∀ j ≤ n + 1, (List.range (n + 1)).foldl (fun ar j' => Function.update ar (j' + 1)
        (s.ar (j' + 1) + k * s.ar (n + 1 - (j' + 1)))) s.prev j =
        s.ar j + k * s.ar (n + 1 - j) := by
      intro j hj
      rw [hcoef j]
      by_cases h0 : j = 0
      · rw [if_neg (by omega), h0, inv.one, inv.prevOne, inv.zero (n + 1 - 0) (by omega)]
        ring
      · rw [if_pos (by omega)]
    refine ⟨?_, inv.one, ?_, fun j hj => inv.zero j (by omega), ?_, ?_, ?_⟩
    · show (List.range (n + 1)).foldl _ s.prev 0 = 1
      rw [hcoef 0, if_neg (by omega), inv.prevOne]
    · intro j hj
      show (List.range (n + 1)).foldl _ s.prev j = 0
      rw [hcoef j, if_neg (by omega), inv.prevZero j (by omega)]
    · constructor
      · simp only [List.length_drop]; omega
      · simp only [List.length_take]; omega
    · intro t ht
      show ((axpy s.f k s.b).drop 1).getD t 0 = _
      have e0 : ((axpy s.f k s.b).drop 1).getD t 0 = (axpy s.f k s.b).getD (t + 1) 0 := by
        simp [List.getD_eq_getElem?_getD]
      rw [e0, axpy_getD k _ _ (hlen.1.trans hlen.2.symm), inv.fwd (t + 1) (by omega),
        inv.bwd (t + 1) (by omega)]
      have e1 : ∑ j ∈ Finset.range (n + 1 + 1), (List.range (n + 1)).foldl (fun ar j' =>
          Function.update ar (j' + 1) (s.ar (j' + 1) + k * s.ar (n + 1 - (j' + 1)))) s.prev j *
            x.getD (t + 1 + (n + 1) - j) 0 =
          ∑ j ∈ Finset.range (n + 1 + 1), (s.ar j * x.getD (t + 1 + (n + 1) - j) 0 +
            k * (s.ar (n + 1 - j) * x.getD (t + 1 + (n + 1) - j) 0)) := by
        refine Finset.sum_congr rfl fun j hj => ?_
        have := Finset.mem_range.mp hj
        rw [hnew j (by omega)]
        ring
      refine Eq.trans ?_ e1.symm
      rw [Finset.sum_add_distrib, ← Finset.mul_sum]
      congr 1
      · rw [Finset.sum_range_succ _ (n + 1), inv.zero (n + 1) (by omega), zero_mul, add_zero]
        refine Finset.sum_congr rfl fun j _ => ?_
        have : t + 1 + 1 + n - j = t + 1 + (n + 1) - j := by omega
        rw [this]
      · congr 1
        rw [← Finset.sum_range_reflect (fun j => s.ar (n + 1 - j) * _) (n + 1 + 1),
          Finset.sum_range_succ _ (n + 1)]
        have h0 : n + 1 - (n + 1 + 1 - 1 - (n + 1)) = n + 1 := by omega
        rw [h0, inv.zero (n + 1) (by omega), zero_mul, add_zero]
        refine Finset.sum_congr rfl fun j hj => ?_
        have := Finset.mem_range.mp hj
        have h1 : n + 1 - (n + 1 + 1 - 1 - j) = j := by omega
        have h2 : t + 1 + (n + 1) - (n + 1 + 1 - 1 - j) = t + 1 + j := by omega
        rw [h1, h2]
    · intro t ht
      show ((axpy s.b k s.f).take ((axpy s.b k s.f).length - 1)).getD t 0 = _
      have e0 : ((axpy s.b k s.f).take ((axpy s.b k s.f).length - 1)).getD t 0 =
          (axpy s.b k s.f).getD t 0 := by
        have : t < (axpy s.b k s.f).length - 1 := by omega
        rw [List.getD_eq_getElem?_getD, List.getElem?_take_of_lt this,
          List.getD_eq_getElem?_getD]
      rw [e0, axpy_getD k _ _ (hlen.2.trans hlen.1.symm), inv.fwd t (by omega),
        inv.bwd t (by omega)]
      have e1 : ∑ j ∈ Finset.range (n + 1 + 1), (List.range (n + 1)).foldl (fun ar j' =>
          Function.update ar (j' + 1) (s.ar (j' + 1) + k * s.ar (n + 1 - (j' + 1)))) s.prev j *
            x.getD (t + j) 0 =
          ∑ j ∈ Finset.range (n + 1 + 1), (s.ar j * x.getD (t + j) 0 +
            k * (s.ar (n + 1 - j) * x.getD (t + j) 0)) := by
        refine Finset.sum_congr rfl fun j hj => ?_
        have := Finset.mem_range.mp hj
        rw [hnew j (by omega)]
        ring
      refine Eq.trans ?_ e1.symm
      rw [Finset.sum_add_distrib, ← Finset.mul_sum]
      congr 1
      · rw [Finset.sum_range_succ _ (n + 1), inv.zero (n + 1) (by omega), zero_mul, add_zero]
      · congr 1
        rw [← Finset.sum_range_reflect (fun j => s.ar (n + 1 - j) * _) (n + 1 + 1),
          Finset.sum_range_succ _ (n + 1)]
        have h0 : n + 1 - (n + 1 + 1 - 1 - (n + 1)) = n + 1 := by omega
        rw [h0, inv.zero (n + 1) (by omega), zero_mul, add_zero]
        refine Finset.sum_congr rfl fun j hj => ?_
        have := Finset.mem_range.mp hj
        have h1 : n + 1 - (n + 1 + 1 - 1 - j) = j := by omega
        have h2 : t + (n + 1 + 1 - 1 - j) = t + 1 + n - j := by omega
        rw [h1, h2]

omit [IsStrictOrderedRing K] in
/-- The forward prediction error the method keeps is the output of the returned filter:
sample `t` is `∑ⱼ aⱼ x[t + 1 + order - j]`. -/
theorem C27_error_is_filter_output (eps : K) (x : List K) (order : ℕ) (s : BurgState K)
    (a : List K) (E : K) (h : burgRun eps x order = .ok s)
    (ha : burg eps x order false = .ok (a, E)) :
    a.getD 0 0 = 1 ∧ s.f.length = x.length - 1 - order ∧
    ∀ t < s.f.length, s.f.getD t 0 =
      ∑ j ∈ Finset.range a.length, a.getD j 0 * x.getD (t + 1 + order - j) 0 := by
  have inv := coefInv_run eps x order s h
  unfold burg at ha
  simp only [Bool.false_eq_true, if_false, lt_irrefl, h] at ha
  have ha' := Except.ok.inj ha
  rw [Prod.mk.injEq] at ha'
  have ha1 := ha'.1.symm
  subst ha1
  have hget : ∀ j < order + 1, ((List.range (order + 1)).map s.ar).getD j 0 = s.ar j := by
    intro j hj
    simp [List.getD_eq_getElem?_getD, hj]
  refine ⟨by rw [hget 0 (by omega), inv.one], inv.len.1, ?_⟩
  intro t ht
  rw [inv.fwd t (by have := inv.len.1; omega), List.length_map, List.length_range]
  refine Finset.sum_congr rfl fun j hj => ?_
  rw [hget j (Finset.mem_range.mp hj)]

omit [IsStrictOrderedRing K] in
/-- For an array with several channels the result has one row more than the signal has
samples whatever order is asked for. -/
theorem C27_multichannel_shape (eps : K) (x : List K) (order : ℕ) (h : order < x.length) :
    ∃ a E, burg eps x order true = .ok (a, E) ∧ a.length = x.length + 1 ∧
      ∀ j, order < j → a.getD j 0 = 0 := by
  obtain ⟨s, hs⟩ := burgRun_total eps x order (.inl h)
  refine ⟨(List.range (x.length + 1)).map s.ar, s.den, ?_, by simp, ?_⟩
  · unfold burg
    simp only [if_true, hs]
    rw [if_neg (by omega)]
  · intro j hj
    by_cases hlt : j < x.length + 1
    · have : ((List.range (x.length + 1)).map s.ar).getD j 0 = s.ar j := by
        simp [List.getD_eq_getElem?_getD, hlt]
      rw [this]
      exact (coefInv_run eps x order s hs).zero j hj
    · exact List.getD_eq_default _ _ (by simp; omega)

/-- Concrete case: two passes for a signal with four samples. -/
example : ∃ a : List ℚ, ∃ E, burg (1 / 4) [1, 2, 0, -1] 2 false = .ok (a, E) ∧ a.length = 3 :=
  C27_total (1 / 4) ([1, 2, 0, -1] : List ℚ) 2 (by simp)

/-- Concrete case: the first reflection coefficient of an alternating signal. -/
example : reflection (1 : ℚ) (burgInit [1, -1, 1]) = 4 / 5 := by decide +kernel

end Verif.AR
