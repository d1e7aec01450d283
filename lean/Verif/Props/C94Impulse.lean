import Verif.Props.C94Edges

/-!
# C94: the impulse response of the gaussian kernel with zero phase
-/

namespace Verif.ZeroPhase

/-- The section of one pole at `m` with gain one at frequency zero. -/
def onePole (m : ℝ) : List ℝ := [1 - m, 0, 0, 1, -m, 0]

theorem runOnePole_cons (m z v : ℝ) (x : List ℝ) : runSection (onePole m) (z, 0) (v :: x) =
    ((1 - m) * v + z) :: runSection (onePole m) (m * ((1 - m) * v + z), 0) x := by
  rw [runSection]
  dsimp only
  congr 1
  congr 1
  refine Prod.ext ?_ ?_ <;> simp [onePole]

theorem run_constant (m c : ℝ) (k : ℕ) (r : List ℝ) : runSection (onePole m) (m * c, 0) (List.replicate k c ++ r) =
    List.replicate k c ++ runSection (onePole m) (m * c, 0) r := by
  induction k with
  | zero => rfl
  | succ k ih =>
    have e : (1 - m) * c + m * c = c := by ring
    rw [List.replicate_succ, List.cons_append, runOnePole_cons, e, ih, List.cons_append]

theorem run_zeros (m q : ℝ) (k : ℕ) : runSection (onePole m) (q, 0) (List.replicate k 0) =
    (List.range k).map fun i : ℕ => q * m ^ i := by
  induction k generalizing q with
  | zero => rfl
  | succ k ih =>
    rw [List.replicate_succ, runOnePole_cons, mul_zero, zero_add, ih, List.range_succ_eq_map, List.map_cons, List.map_map]
    congr 1
    · simp
    · apply List.map_congr_left
      intro i _
      simp only [Function.comp]
      rw [pow_succ]
      ring

theorem run_decay (m q : ℝ) (hm : 1 + m ≠ 0) (k : ℕ) (z : ℝ) (r : List ℝ) :
    (runSection (onePole m) (z, 0) (((List.range (k + 1)).map fun i : ℕ => q * m ^ i).reverse ++ r)).getD k 0 =
      q * (1 - m ^ (2 * k + 2)) / (1 + m) + m ^ k * z := by
  induction k generalizing z with
  | zero =>
    simp only [zero_add, List.range_one, List.map_cons, List.map_nil, List.reverse_singleton, List.singleton_append]
    rw [runOnePole_cons, List.getD_cons_zero]
    field_simp
    ring
  | succ k ih =>
    rw [List.range_succ, List.map_append, List.reverse_append]
    simp only [List.map_cons, List.map_nil, List.reverse_singleton, List.cons_append, List.nil_append]
    rw [runOnePole_cons, List.getD_cons_succ, ih]
    field_simp
    ring

theorem sosfilt_onePole (m c : ℝ) (hm : 1 - m ≠ 0) (x : List ℝ) :
    sosfilt [onePole m] c x = runSection (onePole m) (m * c, 0) x := by
  have h : 1 + -m ≠ 0 := by rwa [← sub_eq_add_neg]
  simp only [sosfilt]
  congr 1
  refine Prod.ext ?_ ?_
  · simp [sectionZi, onePole]
    field_simp
    ring_nf
    left
    trivial
  · simp [sectionZi, onePole]
    left
    field_simp
    ring

/-- **C94** (disagreement).  `get_ir(length, zero_phase=True)` in full for the kernel of order two: with the pole at `m` the samples
are `m ^ i` and a remainder from the end of the signal, and not `(1 - m) / (1 + m) * m ^ i`, the kernel applied forwards and backwards. -/
theorem C94_impulse_response (seconds boundary : ℝ) (fs : ℕ) (hs : GaussianKernel.sigma seconds boundary fs ≠ 0) (n : ℕ)
    (hn : 7 < n) : ∃ m v, 0 < m ∧ m < 1 ∧ GaussianKernel.sections seconds boundary 2 fs = .ok [[1 - m, 0, 0, 1, -m, 0]] ∧
      getIrZeroPhase [[1 - m, 0, 0, 1, -m, 0]] n = .ok v ∧ v.length = n ∧
      ∀ i < n, v.getD i 0 = m ^ i + m ^ (2 * (n + 6) - 1 - i) := by
  have hl := GaussianKernel.lambda_pos _ 1 hs one_pos
  set l := GaussianKernel.lambda (GaussianKernel.sigma seconds boundary fs) 1 with hldef
  have hm0 := GaussianKernel.mu_pos l hl
  have hm1 := GaussianKernel.mu_lt_one l hl
  have hr := GaussianKernel.mu_root l hl
  set m := GaussianKernel.mu l with hmdef
  have hsq : Real.sqrt (m / l) = 1 - m := by
    have e : m / l = (1 - m) ^ 2 := by
      rw [div_eq_iff hl.ne']
      linarith
    rw [e, Real.sqrt_sq (by linarith)]
  have hedge : edgeOf [onePole m] = 6 := by
    simp [edgeOf, onePole]
  obtain ⟨k, rfl⟩ : ∃ k, n = k + 1 := ⟨n - 1, by omega⟩
  have hx : getIrZeroPhase [onePole m] (k + 1) = sosfiltfilt [onePole m] (1 :: List.replicate k 0) := rfl
  obtain ⟨v, hv, hlen⟩ := (C94_zero_phase_length [onePole m] (1 :: List.replicate k 0)).2 (by rw [hedge]; simp; omega)
  refine ⟨m, v, hm0, hm1, ?_, hx.trans hv, by simpa using hlen, ?_⟩
  · unfold GaussianKernel.sections
    rw [if_neg (by omega)]
    simp only [show 2 / 2 = 1 by omega, List.replicate_one, ← hldef, ← hmdef, hsq]
  have hext : oddExt 6 (1 :: List.replicate k 0) = List.replicate 6 2 ++ 1 :: List.replicate (k + 6) 0 := by
    apply List.ext_getElem
    · simp [oddExt]
    · intro i h1 h2
      have g : ∀ j, 0 < j → (1 :: List.replicate k (0 : ℝ)).getD j 0 = 0 := by
        intro j hj
        obtain ⟨j, rfl⟩ : ∃ i, j = i + 1 := ⟨j - 1, by omega⟩
        rw [List.getD_cons_succ, List.getD_eq_getElem?_getD, List.getElem?_replicate]
        split_ifs <;> rfl
      have hi : i < k + 1 + 12 := by
        rw [oddExt_length, List.length_cons, List.length_replicate] at h1
        omega
      have e : (oddExt 6 (1 :: List.replicate k (0 : ℝ)))[i] =
          if i < 6 then 2 * 1 - (1 :: List.replicate k (0 : ℝ)).getD (6 - i) 0
          else if i < 6 + (k + 1) then (1 :: List.replicate k (0 : ℝ)).getD (i - 6) 0
          else 2 * (1 :: List.replicate k (0 : ℝ)).getD (k + 1 - 1) 0 -
            (1 :: List.replicate k (0 : ℝ)).getD (k + 1 - 2 - (i - 6 - (k + 1))) 0 := by
        simp [oddExt]
      rw [e]
      rcases lt_trichotomy i 6 with h | h | h
      · rw [if_pos h, g _ (by omega), List.getElem_append_left (by simpa using h), List.getElem_replicate]
        ring
      · subst h
        rw [if_neg (by omega), if_pos (by omega), List.getElem_append_right (by simp)]
        simp
      · rw [if_neg (by omega), List.getElem_append_right (by rw [List.length_replicate]; omega)]
        obtain ⟨j, rfl⟩ : ∃ j, i = j + 7 := ⟨i - 7, by omega⟩
        simp only [List.length_replicate, show j + 7 - 6 = j + 1 by omega, List.getElem_cons_succ, List.getElem_replicate]
        split_ifs with h3
        · exact g _ (by omega)
        · rw [g _ (by omega), g _ (by omega)]
          ring
  have hm' : 1 - m ≠ 0 := by linarith
  have hy : sosfilt [onePole m] 2 (List.replicate 6 2 ++ 1 :: List.replicate (k + 6) 0) =
      List.replicate 6 2 ++ (List.range (k + 6 + 1)).map fun i : ℕ => (1 + m) * m ^ i := by
    rw [sosfilt_onePole m 2 hm', run_constant, runOnePole_cons, run_zeros, List.range_succ_eq_map (n := k + 6), List.map_cons,
      List.map_map]
    congr 2
    · ring
    · apply List.map_congr_left
      intro i _
      simp only [Function.comp]
      rw [pow_succ]
      ring
  unfold sosfiltfilt at hv
  dsimp only at hv
  rw [hedge, if_neg (by simp; omega), hext] at hv
  have h0 : (List.replicate 6 (2 : ℝ) ++ 1 :: List.replicate (k + 6) 0).getD 0 0 = 2 := rfl
  rw [h0, hy, List.reverse_append, List.reverse_replicate] at hv
  set D := ((List.range (k + 6 + 1)).map fun i : ℕ => (1 + m) * m ^ i).reverse with hD
  have hDl : D.length = k + 7 := by simp [hD]
  have hD0 : (D ++ List.replicate 6 2).getD 0 0 = (1 + m) * m ^ (k + 6) := by
    rw [hD, List.range_succ, List.map_append, List.reverse_append]
    rfl
  rw [hD0, sosfilt_onePole m _ hm'] at hv
  intro i hi
  have hrl : (runSection (onePole m) (m * ((1 + m) * m ^ (k + 6)), 0) (D ++ List.replicate 6 2)).length = k + 13 := by
    rw [runSection_length, List.length_append, hDl, List.length_replicate]
  have hval : v.getD i 0 =
      (runSection (onePole m) (m * ((1 + m) * m ^ (k + 6)), 0) (D ++ List.replicate 6 2)).getD (k + 6 - i) 0 := by
    rw [← Except.ok.inj hv, List.getD_eq_getElem?_getD, List.getElem?_take_of_lt (by rw [List.length_reverse, hrl]; omega),
      List.getElem?_drop, List.getElem?_reverse (by rw [hrl]; omega), hrl, ← List.getD_eq_getElem?_getD]
    congr 1
    omega
  obtain ⟨c, hc⟩ : ∃ c, k + 6 = i + c := ⟨k + 6 - i, by omega⟩
  have hsplit : D = ((List.range (c + 1)).map fun j : ℕ => (1 + m) * m ^ i * m ^ j).reverse ++
      ((List.range i).map fun j : ℕ => (1 + m) * m ^ j).reverse := by
    rw [hD, hc, add_assoc, List.range_add, List.map_append, List.reverse_append, List.map_map]
    congr 2
    apply List.map_congr_left
    intro j _
    simp only [Function.comp]
    rw [pow_add]
    ring
  rw [hval, hsplit, List.append_assoc, show k + 6 - i = c by omega, run_decay m _ (by linarith), hc,
    show 2 * (k + 1 + 6) - 1 - i = i + 2 * c + 1 by omega]
  have hm2 : 1 + m ≠ 0 := by linarith
  field_simp
  ring

/-- **C94** (disagreement).  `get_ir(length, zero_phase=True)` is not the response of the kernel to an impulse: the impulse is the
first sample, and the samples put before it are mirrored at its value, so that two times the impulse precedes it.  The first
sample of the response of the kernel of order two is above one, the impulse itself, for every width and length, although the
kernel smooths with gain one. -/
theorem C94_impulse_wrong (seconds boundary : ℝ) (fs : ℕ) (hs : GaussianKernel.sigma seconds boundary fs ≠ 0) (n : ℕ)
    (hn : 7 < n) : ∃ sos v, GaussianKernel.sections seconds boundary 2 fs = .ok sos ∧ getIrZeroPhase sos n = .ok v ∧
      v.length = n ∧ 1 < v.getD 0 0 := by
  obtain ⟨m, v, hm0, -, h1, h2, h3, h4⟩ := C94_impulse_response seconds boundary fs hs n hn
  refine ⟨_, v, h1, h2, h3, ?_⟩
  rw [h4 0 (by omega), pow_zero]
  linarith [pow_pos hm0 (2 * (n + 6) - 1 - 0)]

/-- A kernel of nonzero width and a length that meets the hypotheses. -/
example : GaussianKernel.sigma 1 (Real.exp (-1 / 2)) 48000 ≠ 0 ∧ 7 < 100 := by
  refine ⟨?_, by norm_num⟩
  unfold GaussianKernel.sigma
  rw [one_div, ← Real.exp_neg, Real.log_exp]
  norm_num

end Verif.ZeroPhase
