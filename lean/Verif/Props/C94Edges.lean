import Verif.Model.ZeroPhase
import Verif.Props.C94
import Mathlib.Data.List.GetD
import Mathlib.Tactic.Linarith
import Mathlib.Tactic.FieldSimp

/-!
# C94: filtering with zero phase at the edges of signals
-/

namespace Verif.ZeroPhase

theorem runSection_length (s : List ℝ) (x : List ℝ) (z : ℝ × ℝ) : (runSection s z x).length = x.length := by
  induction x generalizing z with
  | nil => rfl
  | cons v x ih => simp [runSection, ih]

theorem sosfilt_length (sos : List (List ℝ)) (c : ℝ) (x : List ℝ) : (sosfilt sos c x).length = x.length := by
  induction sos generalizing c x with
  | nil => rfl
  | cons s sos ih => rw [sosfilt, ih, runSection_length]

theorem oddExt_length (edge : ℕ) (x : List ℝ) : (oddExt edge x).length = x.length + 2 * edge := by
  simp [oddExt]

/-- Linear combination of two signals. -/
def comb (a b : ℝ) (x y : List ℝ) : List ℝ := List.zipWith (fun u v => a * u + b * v) x y

theorem comb_length (a b : ℝ) (x y : List ℝ) (h : x.length = y.length) : (comb a b x y).length = x.length := by
  simp [comb, h]

theorem comb_getD (a b : ℝ) (x y : List ℝ) (h : x.length = y.length) (i : ℕ) :
    (comb a b x y).getD i 0 = a * x.getD i 0 + b * y.getD i 0 := by
  unfold comb
  simp only [List.getD_eq_getElem?_getD, List.getElem?_zipWith]
  by_cases hi : i < x.length
  · rw [List.getElem?_eq_getElem hi, List.getElem?_eq_getElem (by omega : i < y.length)]
    rfl
  · rw [List.getElem?_eq_none (by omega), List.getElem?_eq_none (by omega : y.length ≤ i)]
    simp

theorem runSection_comb (s : List ℝ) (a b : ℝ) (x y : List ℝ) (h : x.length = y.length) (z w : ℝ × ℝ) :
    runSection s (a * z.1 + b * w.1, a * z.2 + b * w.2) (comb a b x y) =
      comb a b (runSection s z x) (runSection s w y) := by
  induction x generalizing y z w with
  | nil => simp [comb, runSection]
  | cons u x ih =>
    cases y with
    | nil => simp at h
    | cons v y =>
      have ih' := ih y (by simpa using h)
        (s.getD 1 0 * u - s.getD 4 0 * (s.getD 0 0 * u + z.1) + z.2, s.getD 2 0 * u - s.getD 5 0 * (s.getD 0 0 * u + z.1))
        (s.getD 1 0 * v - s.getD 4 0 * (s.getD 0 0 * v + w.1) + w.2, s.getD 2 0 * v - s.getD 5 0 * (s.getD 0 0 * v + w.1))
      unfold comb at ih' ⊢
      simp only [List.zipWith_cons_cons, runSection]
      rw [← ih']
      congr 1
      · ring
      · congr 1
        refine Prod.ext ?_ ?_ <;> (dsimp only; ring)

theorem sosfilt_comb (sos : List (List ℝ)) (a b c d : ℝ) (x y : List ℝ) (h : x.length = y.length) :
    sosfilt sos (a * c + b * d) (comb a b x y) = comb a b (sosfilt sos c x) (sosfilt sos d y) := by
  induction sos generalizing c d x y with
  | nil => rfl
  | cons s sos ih =>
    simp only [sosfilt]
    rw [← ih _ _ _ _ (by rw [runSection_length, runSection_length, h]), ← runSection_comb s a b x y h]
    congr 1
    · ring
    · congr 1
      refine Prod.ext ?_ ?_ <;> (dsimp only; ring)

theorem oddExt_comb (edge : ℕ) (a b : ℝ) (x y : List ℝ) (h : x.length = y.length) :
    oddExt edge (comb a b x y) = comb a b (oddExt edge x) (oddExt edge y) := by
  apply List.ext_getElem
  · rw [comb_length _ _ _ _ (by rw [oddExt_length, oddExt_length, h]), oddExt_length, oddExt_length, comb_length _ _ _ _ h]
  · intro i h1 h2
    have e : ∀ (l : List ℝ) (hi : i < (oddExt edge l).length), (oddExt edge l)[i] =
        if i < edge then 2 * l.getD 0 0 - l.getD (edge - i) 0
        else if i < edge + l.length then l.getD (i - edge) 0
        else 2 * l.getD (l.length - 1) 0 - l.getD (l.length - 2 - (i - edge - l.length)) 0 := by
      intro l hi
      simp [oddExt]
    rw [e]
    simp only [comb_getD a b x y h, comb_length a b x y h]
    have e2 : (comb a b (oddExt edge x) (oddExt edge y))[i] = a * (oddExt edge x)[i]'(by
        rw [oddExt_length] at h1 ⊢; rw [comb_length a b x y h] at h1; exact h1) + b * (oddExt edge y)[i]'(by
        rw [oddExt_length] at h1 ⊢; rw [comb_length a b x y h, h] at h1; exact h1) := by
      simp [comb]
    rw [e2, e, e, ← h]
    split_ifs <;> ring

theorem comb_reverse (a b : ℝ) (x y : List ℝ) (h : x.length = y.length) :
    (comb a b x y).reverse = comb a b x.reverse y.reverse := by
  unfold comb
  exact List.reverse_zipWith h

/-- **C94.**  Filtering with zero phase keeps the length, for every filter; signals that are not longer than the extension are
refused. -/
theorem C94_zero_phase_length (sos : List (List ℝ)) (x : List ℝ) :
    (x.length ≤ edgeOf sos → sosfiltfilt sos x = .error .valueError) ∧
      (edgeOf sos < x.length → ∃ y, sosfiltfilt sos x = .ok y ∧ y.length = x.length) := by
  refine ⟨fun h => by rw [sosfiltfilt, if_pos h], fun h => ?_⟩
  refine ⟨_, by rw [sosfiltfilt, if_neg (by omega)], ?_⟩
  simp only [List.length_take, List.length_drop, List.length_reverse, sosfilt_length, oddExt_length]
  omega

/-- **C94.**  Filtering with zero phase is linear, edges included, for every filter. -/
theorem C94_zero_phase_linear (sos : List (List ℝ)) (a b : ℝ) (x y u v : List ℝ) (h : x.length = y.length)
    (hu : sosfiltfilt sos x = .ok u) (hv : sosfiltfilt sos y = .ok v) :
    sosfiltfilt sos (comb a b x y) = .ok (comb a b u v) := by
  unfold sosfiltfilt at hu hv ⊢
  dsimp only at hu hv ⊢
  by_cases hl : x.length ≤ edgeOf sos
  · rw [if_pos hl] at hu
    cases hu
  rw [if_neg hl] at hu
  rw [if_neg (by omega)] at hv
  rw [if_neg (by rw [comb_length a b x y h]; exact hl), ← Except.ok.inj hu, ← Except.ok.inj hv]
  have l1 : (oddExt (edgeOf sos) x).length = (oddExt (edgeOf sos) y).length := by
    rw [oddExt_length, oddExt_length, h]
  rw [oddExt_comb _ a b x y h, comb_getD a b _ _ l1, sosfilt_comb sos a b _ _ _ _ l1,
    comb_reverse a b _ _ (by rw [sosfilt_length, sosfilt_length, l1])]
  set X := (sosfilt sos ((oddExt (edgeOf sos) x).getD 0 0) (oddExt (edgeOf sos) x)).reverse with hX
  set Y := (sosfilt sos ((oddExt (edgeOf sos) y).getD 0 0) (oddExt (edgeOf sos) y)).reverse with hY
  have l2 : X.length = Y.length := by
    rw [hX, hY, List.length_reverse, List.length_reverse, sosfilt_length, sosfilt_length, l1]
  rw [comb_getD a b _ _ l2, sosfilt_comb sos a b _ _ _ _ l2,
    comb_reverse a b _ _ (by rw [sosfilt_length, sosfilt_length, l2])]
  congr 1
  have l3 : (comb a b (sosfilt sos (X.getD 0 0) X).reverse (sosfilt sos (Y.getD 0 0) Y).reverse).length =
      (sosfilt sos (X.getD 0 0) X).reverse.length := by
    apply comb_length
    rw [List.length_reverse, List.length_reverse, sosfilt_length, sosfilt_length, l2]
  have l4 : (sosfilt sos (Y.getD 0 0) Y).reverse.length = (sosfilt sos (X.getD 0 0) X).reverse.length := by
    rw [List.length_reverse, List.length_reverse, sosfilt_length, sosfilt_length, l2]
  rw [l3, l4]
  unfold comb
  rw [List.drop_zipWith, List.take_zipWith]

/-- `y` is `x` after the filter given by the sections: the difference equation of every section holds wherever two samples
before exist. -/
def Passed : List (List ℝ) → List ℝ → List ℝ → Prop
  | [], x, y => y = x
  | s :: sos, x, y => ∃ u : List ℝ, u.length = x.length ∧
      (∀ n, n + 2 < x.length → u.getD (n + 2) 0 + s.getD 4 0 * u.getD (n + 1) 0 + s.getD 5 0 * u.getD n 0 =
        s.getD 0 0 * x.getD (n + 2) 0 + s.getD 1 0 * x.getD (n + 1) 0 + s.getD 2 0 * x.getD n 0) ∧ Passed sos u y

theorem runSection_equation (s : List ℝ) (x : List ℝ) (z : ℝ × ℝ) (n : ℕ) (hn : n + 2 < x.length) :
    (runSection s z x).getD (n + 2) 0 + s.getD 4 0 * (runSection s z x).getD (n + 1) 0 +
      s.getD 5 0 * (runSection s z x).getD n 0 =
      s.getD 0 0 * x.getD (n + 2) 0 + s.getD 1 0 * x.getD (n + 1) 0 + s.getD 2 0 * x.getD n 0 := by
  induction n generalizing x z with
  | zero =>
    match x, hn with
    | a :: b :: c :: x, _ =>
      simp only [runSection, zero_add, List.getD_cons_zero, List.getD_cons_succ]
      ring
  | succ n ih =>
    match x, hn with
    | a :: x, hn =>
      have := ih x (s.getD 1 0 * a - s.getD 4 0 * (s.getD 0 0 * a + z.1) + z.2,
        s.getD 2 0 * a - s.getD 5 0 * (s.getD 0 0 * a + z.1)) (by rw [List.length_cons] at hn; omega)
      simp only [runSection, List.getD_cons_succ]
      exact this

theorem sosfilt_passed (sos : List (List ℝ)) (c : ℝ) (x : List ℝ) : Passed sos x (sosfilt sos c x) := by
  induction sos generalizing c x with
  | nil => rfl
  | cons s sos ih =>
    exact ⟨_, runSection_length _ _ _, fun n hn => runSection_equation s x _ n hn, ih _ _⟩

/-- `e` is `x` with `edge` samples at both ends that mirror it at its first and last sample. -/
def Extended (edge : ℕ) (x e : List ℝ) : Prop :=
  e.length = x.length + 2 * edge ∧ (∀ i < x.length, e.getD (edge + i) 0 = x.getD i 0) ∧
    (∀ i ≤ edge, 0 < i → e.getD (edge - i) 0 = 2 * x.getD 0 0 - x.getD i 0) ∧
    ∀ i ≤ edge, 0 < i → e.getD (edge + x.length - 1 + i) 0 = 2 * x.getD (x.length - 1) 0 - x.getD (x.length - 1 - i) 0

theorem oddExt_extended (edge : ℕ) (x : List ℝ) (hx : edge < x.length) : Extended edge x (oddExt edge x) := by
  have e : ∀ i < x.length + 2 * edge, (oddExt edge x).getD i 0 =
      if i < edge then 2 * x.getD 0 0 - x.getD (edge - i) 0
      else if i < edge + x.length then x.getD (i - edge) 0
      else 2 * x.getD (x.length - 1) 0 - x.getD (x.length - 2 - (i - edge - x.length)) 0 := by
    intro i hi
    rw [List.getD_eq_getElem _ _ (by rw [oddExt_length]; exact hi)]
    simp [oddExt]
  refine ⟨oddExt_length _ _, fun i hi => ?_, fun i hi h0 => ?_, fun i hi h0 => ?_⟩
  · rw [e _ (by omega), if_neg (by omega), if_pos (by omega), Nat.add_sub_cancel_left]
  · rw [e _ (by omega), if_pos (by omega), Nat.sub_sub_self hi]
  · rw [e _ (by omega), if_neg (by omega), if_neg (by omega)]
    congr 2
    omega

/-- **C94.**  Filtering with zero phase: the signal, mirrored at its ends, passes the filter forwards and the result passes it
backwards; the output is the part of the signal itself. -/
theorem C94_zero_phase_passes (sos : List (List ℝ)) (x v : List ℝ) (h : sosfiltfilt sos x = .ok v) :
    ∃ e y w : List ℝ, Extended (edgeOf sos) x e ∧ Passed sos e y ∧ Passed sos y.reverse w.reverse ∧
      v.length = x.length ∧ ∀ i < x.length, v.getD i 0 = w.getD (edgeOf sos + i) 0 := by
  have hl : edgeOf sos < x.length := by
    by_contra hc
    rw [(C94_zero_phase_length sos x).1 (by omega)] at h
    cases h
  obtain ⟨v', hv', hlen⟩ := (C94_zero_phase_length sos x).2 hl
  rw [h] at hv'
  obtain rfl := Except.ok.inj hv'
  unfold sosfiltfilt at h
  dsimp only at h
  rw [if_neg (by omega)] at h
  set y := sosfilt sos ((oddExt (edgeOf sos) x).getD 0 0) (oddExt (edgeOf sos) x) with hy
  refine ⟨_, y, (sosfilt sos (y.reverse.getD 0 0) y.reverse).reverse, oddExt_extended _ x hl, sosfilt_passed _ _ _, ?_, hlen,
    fun i hi => ?_⟩
  · rw [List.reverse_reverse]
    exact sosfilt_passed _ _ _
  · have hw : (sosfilt sos (y.reverse.getD 0 0) y.reverse).reverse.length = x.length + 2 * edgeOf sos := by
      rw [List.length_reverse, sosfilt_length, List.length_reverse, hy, sosfilt_length, oddExt_length]
    rw [← Except.ok.inj h, List.getD_eq_getElem?_getD, List.getElem?_take_of_lt (by omega), List.getElem?_drop,
      ← List.getD_eq_getElem?_getD]

theorem runSection_constant (s : List ℝ) (hs : 1 + s.getD 4 0 + s.getD 5 0 ≠ 0) (c : ℝ) (n : ℕ) :
    runSection s ((sectionZi s).1 * c, (sectionZi s).2 * c) (List.replicate n c) = List.replicate n (c * dcGain s) := by
  have h1 : s.getD 0 0 + (sectionZi s).1 = dcGain s := by
    unfold sectionZi dcGain
    field_simp
    ring
  have h2 : s.getD 1 0 - s.getD 4 0 * dcGain s + (sectionZi s).2 = (sectionZi s).1 := by
    unfold sectionZi dcGain
    field_simp
    ring
  have h3 : s.getD 2 0 - s.getD 5 0 * dcGain s = (sectionZi s).2 := by
    unfold sectionZi dcGain
    field_simp
    ring
  induction n with
  | zero => rfl
  | succ n ih =>
    rw [List.replicate_succ, runSection]
    dsimp only
    rw [List.replicate_succ]
    have e : s.getD 0 0 * c + (sectionZi s).1 * c = c * dcGain s := by rw [← h1]; ring
    rw [e]
    congr 1
    rw [← ih]
    congr 1
    refine Prod.ext ?_ ?_
    · dsimp only
      linear_combination c * h2
    · dsimp only
      linear_combination c * h3

theorem sosfilt_constant (sos : List (List ℝ)) (hs : ∀ s ∈ sos, 1 + s.getD 4 0 + s.getD 5 0 ≠ 0) (c : ℝ) (n : ℕ) :
    sosfilt sos c (List.replicate n c) = List.replicate n (c * (sos.map dcGain).prod) := by
  induction sos generalizing c with
  | nil => simp [sosfilt]
  | cons s sos ih =>
    rw [sosfilt, runSection_constant s (hs s (by simp)), ih fun t ht => hs t (by simp [ht])]
    rw [List.map_cons, List.prod_cons, mul_assoc]

/-- **C94.**  Filtering with zero phase multiplies a constant signal with the squared gain at frequency zero, without any
transient at the edges, for every filter without a pole at frequency zero. -/
theorem C94_zero_phase_constant (sos : List (List ℝ)) (hs : ∀ s ∈ sos, 1 + s.getD 4 0 + s.getD 5 0 ≠ 0) (c : ℝ) (n : ℕ)
    (hn : edgeOf sos < n) :
    sosfiltfilt sos (List.replicate n c) = .ok (List.replicate n (c * (sos.map dcGain).prod ^ 2)) := by
  unfold sosfiltfilt
  dsimp only
  rw [if_neg (by rw [List.length_replicate]; omega)]
  have hx : oddExt (edgeOf sos) (List.replicate n c) = List.replicate (n + 2 * edgeOf sos) c := by
    unfold oddExt
    apply List.ext_getElem
    · simp
    · intro i h1 h2
      simp only [List.length_map, List.length_range, List.length_replicate] at h1
      have g : ∀ j < n, (List.replicate n c).getD j 0 = c := by
        intro j hj
        rw [List.getD_eq_getElem _ _ (by simpa using hj), List.getElem_replicate]
      rw [List.getElem_map, List.getElem_range, List.getElem_replicate, List.length_replicate]
      split_ifs with h3 h4
      · rw [g _ (by omega), g _ (by omega)]
        ring
      · rw [g _ (by omega)]
      · rw [g _ (by omega), g _ (by omega)]
        ring
  have hh : ∀ (m : ℕ) (v : ℝ), 0 < m → (List.replicate m v).getD 0 0 = v := by
    intro m v hm
    rw [List.getD_eq_getElem _ _ (by simpa using hm), List.getElem_replicate]
  rw [hx, hh _ _ (by omega), sosfilt_constant sos hs, List.reverse_replicate, hh _ _ (by omega), sosfilt_constant sos hs,
    List.reverse_replicate, List.drop_replicate, List.take_replicate, List.length_replicate]
  congr 2
  · omega
  · ring

/-- **C94.**  The gaussian kernel applied with zero phase leaves every constant signal longer than the extension, `3 (K + 1)`
samples with `K = order / 2`, as it is, up to the edges. -/
theorem C94_constant (seconds boundary : ℝ) (K fs : ℕ) (hK : 0 < K) (hs : GaussianKernel.sigma seconds boundary fs ≠ 0)
    (c : ℝ) (n : ℕ) : ∃ sos, GaussianKernel.sections seconds boundary (2 * K) fs = .ok sos ∧
      (3 * (K + 1) < n → sosfiltfilt sos (List.replicate n c) = .ok (List.replicate n c)) ∧
      (n ≤ 3 * (K + 1) → sosfiltfilt sos (List.replicate n c) = .error .valueError) := by
  have hl := GaussianKernel.lambda_pos _ K hs hK
  set l := GaussianKernel.lambda (GaussianKernel.sigma seconds boundary fs) K with hldef
  have hm0 := GaussianKernel.mu_pos l hl
  have hm1 := GaussianKernel.mu_lt_one l hl
  have hr := GaussianKernel.mu_root l hl
  refine ⟨List.replicate K [Real.sqrt (GaussianKernel.mu l / l), 0, 0, 1, -GaussianKernel.mu l, 0], ?_, ?_⟩
  · unfold GaussianKernel.sections
    rw [if_neg (by omega), show 2 * K / 2 = K by omega]
  have hedge : edgeOf (List.replicate K [Real.sqrt (GaussianKernel.mu l / l), 0, 0, 1, -GaussianKernel.mu l, 0]) =
      3 * (K + 1) := by
    unfold edgeOf
    rw [List.countP_replicate, List.countP_replicate]
    simp
    omega
  have hg : dcGain [Real.sqrt (GaussianKernel.mu l / l), 0, 0, 1, -GaussianKernel.mu l, 0] = 1 := by
    have e : GaussianKernel.mu l / l = (1 - GaussianKernel.mu l) ^ 2 := by
      rw [div_eq_iff hl.ne']
      linarith
    unfold dcGain
    rw [e, Real.sqrt_sq (by linarith)]
    simp
    rw [← sub_eq_add_neg]
    exact div_self (by linarith)
  refine ⟨fun hn => ?_, fun hn => (C94_zero_phase_length _ _).1 (by rw [hedge, List.length_replicate]; exact hn)⟩
  rw [C94_zero_phase_constant _ ?_ c n (by rw [hedge]; exact hn), List.map_replicate, hg, List.prod_replicate, one_pow, one_pow,
    mul_one]
  intro s hs
  rw [List.eq_of_mem_replicate hs]
  simp
  linarith

/-- A filter without a pole at frequency zero. -/
example : ∀ s ∈ ([[1, 0, 0, 1, -1 / 2, 0]] : List (List ℝ)), 1 + s.getD 4 0 + s.getD 5 0 ≠ 0 := by
  intro s hs
  rw [List.mem_singleton.1 hs]
  norm_num

end Verif.ZeroPhase
