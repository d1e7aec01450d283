import Verif.Model.Echo
import Verif.Lemmas.Peak
import Verif.Lemmas.LFilter
import Mathlib.Algebra.BigOperators.Intervals
import Mathlib.Algebra.Order.BigOperators.Group.Finset
import Mathlib.Analysis.SpecialFunctions.Trigonometric.Bounds
import Mathlib.Tactic.NormNum
import Mathlib.Tactic.FieldSimp
import Mathlib.Tactic.Ring
import Mathlib.Tactic.Linarith

/-!
# C56: the digital delay
-/

namespace Verif.Echo

open Verif.Level Verif.Distortion Finset

/-! ## Specification -/

/-- The echoes of a signal (0 before its start): the sample, plus `f` times the sample `D` earlier,
plus `f²` times the sample `2 D` earlier, and so on. -/
noncomputable def echoes (f : ℝ) (D : ℕ) (x : ℕ → ℝ) (i : ℕ) : ℝ :=
  ∑ k ∈ range (i / D + 1), f ^ k * x (i - k * D)

/-! ## Lemmas -/

theorem loop_prefix (sat : ℝ → ℝ) (f : ℝ) (D : ℕ) (hD : 0 < D) (td : ℕ → ℝ) (n : ℕ) :
    let a := (List.range' D n).foldl
      (fun a i => Function.update a i (a i + f * sat (a (i - D)))) td
    (∀ i, i < D ∨ D + n ≤ i → a i = td i) ∧
      ∀ i, D ≤ i → i < D + n → a i = td i + f * sat (a (i - D)) := by
  induction n with
  | zero => exact ⟨fun i _ => rfl, fun i h1 h2 => by omega⟩
  | succ n ih =>
    intro a
    obtain ⟨h1, h2⟩ := ih
    have ha : a = Function.update
        ((List.range' D n).foldl (fun a i => Function.update a i (a i + f * sat (a (i - D)))) td)
        (D + n)
        (((List.range' D n).foldl (fun a i => Function.update a i (a i + f * sat (a (i - D)))) td)
          (D + n) + f * sat (((List.range' D n).foldl
            (fun a i => Function.update a i (a i + f * sat (a (i - D)))) td) (D + n - D))) := by
      simp only [a, List.range'_1_concat, List.foldl_append, List.foldl_cons, List.foldl_nil]
    generalize (List.range' D n).foldl
      (fun a i => Function.update a i (a i + f * sat (a (i - D)))) td = b at *
    constructor
    · intro i hi
      rw [ha, Function.update_of_ne (by omega)]
      exact h1 i (by omega)
    · intro i hi1 hi2
      by_cases h : i = D + n
      · subst h
        have e : a (D + n - D) = b (D + n - D) := by rw [ha, Function.update_of_ne (by omega)]
        rw [e, ha, Function.update_self, h1 (D + n) (Or.inr le_rfl)]
      · have e1 : a i = b i := by rw [ha, Function.update_of_ne h]
        have e2 : a (i - D) = b (i - D) := by rw [ha, Function.update_of_ne (by omega)]
        rw [e1, e2]
        exact h2 i hi1 (by omega)

/-- The loop solves the recursion of the delay line. -/
theorem echoLoop_rec (sat : ℝ → ℝ) (f : ℝ) (D L : ℕ) (hD : 0 < D) (td : ℕ → ℝ) (i : ℕ)
    (hi : i < L) :
    echoLoop sat f D L td i
      = td i + if D ≤ i then f * sat (echoLoop sat f D L td (i - D)) else 0 := by
  obtain ⟨h1, h2⟩ := loop_prefix sat f D hD td (L - D)
  by_cases h : D ≤ i
  · rw [if_pos h]
    exact h2 i h (by omega)
  · rw [if_neg h, add_zero]
    exact h1 i (Or.inl (by omega))

theorem echoes_rec (f : ℝ) (D : ℕ) (hD : 0 < D) (x : ℕ → ℝ) (i : ℕ) :
    echoes f D x i = x i + if D ≤ i then f * echoes f D x (i - D) else 0 := by
  unfold echoes
  by_cases h : D ≤ i
  · have hdiv : i / D = (i - D) / D + 1 := by
      conv_lhs => rw [← Nat.sub_add_cancel h]
      rw [Nat.add_div_right _ hD]
    rw [if_pos h, hdiv, sum_range_succ', pow_zero, one_mul, zero_mul, Nat.sub_zero, add_comm,
      mul_sum]
    congr 1
    refine sum_congr rfl fun k _ => ?_
    rw [pow_succ, Nat.succ_mul, add_comm (k * D) D, ← Nat.sub_sub]
    ring
  · rw [if_neg h, add_zero, Nat.div_eq_of_lt (by omega), zero_add, sum_range_one]
    simp

theorem echoLoop_digital (f : ℝ) (D L : ℕ) (hD : 0 < D) (td : ℕ → ℝ) (i : ℕ) (hi : i < L) :
    echoLoop id f D L td i = echoes f D td i := by
  induction i using Nat.strong_induction_on with
  | _ i ih =>
    rw [echoLoop_rec id f D L hD td i hi, echoes_rec f D hD td i]
    by_cases h : D ≤ i
    · rw [if_pos h, if_pos h, ih (i - D) (by omega) (by omega)]; rfl
    · rw [if_neg h, if_neg h]

/-- The first sample that is not zero passes through the loop unchanged. -/
theorem echoLoop_ne_zero (sat : ℝ → ℝ) (hs : sat 0 = 0) (f : ℝ) (D L : ℕ) (hD : 0 < D) (td : ℕ → ℝ)
    (h : ∃ i < L, td i ≠ 0) : ∃ i < L, echoLoop sat f D L td i ≠ 0 := by
  classical
  let i := Nat.find h
  obtain ⟨hi, hn⟩ := Nat.find_spec h
  have hmin : ∀ j < i, td j = 0 := by
    intro j hj
    by_contra hc
    exact Nat.find_min h hj ⟨by omega, hc⟩
  have hz : ∀ j < i, echoLoop sat f D L td j = 0 := by
    intro j
    induction j using Nat.strong_induction_on with
    | _ j ih =>
      intro hj
      rw [echoLoop_rec sat f D L hD td j (by omega), hmin j hj]
      by_cases hd : D ≤ j
      · rw [if_pos hd, ih (j - D) (by omega) (by omega), hs]; ring
      · rw [if_neg hd]; ring
  refine ⟨i, hi, ?_⟩
  rw [echoLoop_rec sat f D L hD td i hi]
  by_cases hd : D ≤ i
  · rw [if_pos hd, hz (i - D) (by omega), hs]; simpa using hn
  · rw [if_neg hd]; simpa using hn

theorem padding_ge (D : ℕ) (f : ℝ) (hf : 0 < f) : D ≤ padding D f := by
  unfold padding
  refine Nat.le_floor ?_
  have : (0 : ℝ) ≤ D := Nat.cast_nonneg D
  nlinarith [mul_nonneg this hf.le]

theorem maxAbs_map_range (L : ℕ) (a : ℕ → ℝ) (h : ∃ i < L, a i ≠ 0) :
    maxAbs ((List.range L).map a) ≠ 0 := by
  obtain ⟨i, hi, hn⟩ := h
  intro h0
  exact hn ((maxAbs_zero_iff _).mp h0 (a i) (List.mem_map.mpr ⟨i, List.mem_range.mpr hi, rfl⟩))

theorem getD_ne_zero (x : List ℝ) (hx : ∃ v ∈ x, v ≠ 0) : ∃ i < x.length, x.getD i 0 ≠ 0 := by
  obtain ⟨v, hv, hn⟩ := hx
  obtain ⟨i, hi, rfl⟩ := List.mem_iff_getElem.mp hv
  exact ⟨i, hi, by rwa [List.getD_eq_getElem _ _ hi]⟩

/-! ## The property -/

/-- For every channel that is not silent, every accepted feedback and every delay of at least one
sample: the output is the sum of the echoes of the input, multiplied by one positive constant,
longer than the input, with the peak of the input. -/
theorem C56_echoes (f : ℝ) (hf : 0 < f) (D : ℕ) (hD : 0 < D) (x : List ℝ) (P : ℝ) (hP : IsPeak x P)
    (hx : P ≠ 0) :
    ∃ y c, applyDelay id f D x = some y ∧ 0 < c ∧ x.length < y.length ∧ IsPeak y P ∧
      ∀ i < y.length, y.getD i 0 = c * echoes f D (fun n => x.getD n 0) i := by
  have hPx := isPeak_iff x P hP
  subst hPx
  have hnz : ∃ v ∈ x, v ≠ 0 := by
    by_contra hc
    push Not at hc
    exact hx ((maxAbs_zero_iff x).mpr hc)
  have hpad := padding_ge D f hf
  obtain ⟨i, hi, hin⟩ := getD_ne_zero x hnz
  have h0 : maxAbs ((List.range (x.length + padding D f)).map
      (echoLoop id f D (x.length + padding D f) fun i => x.getD i 0)) ≠ 0 :=
    maxAbs_map_range _ _ (echoLoop_ne_zero id rfl f D _ hD _ ⟨i, by omega, hin⟩)
  unfold applyDelay
  dsimp only
  generalize hL : x.length + padding D f = L at *
  have hr : restorePeak (maxAbs x) ((List.range L).map (echoLoop id f D L fun i => x.getD i 0))
      = some (((List.range L).map (echoLoop id f D L fun i => x.getD i 0)).map
        (· * (maxAbs x / maxAbs ((List.range L).map (echoLoop id f D L fun i => x.getD i 0))))) :=
    if_neg h0
  have hp1 := maxAbs_pos _ h0
  have hp2 := maxAbs_pos _ hx
  refine ⟨_, maxAbs x / maxAbs ((List.range L).map (echoLoop id f D L fun i => x.getD i 0)), hr,
    by positivity, by simp; omega, ?_, ?_⟩
  · have hne : (List.range L).map (echoLoop id f D L fun i => x.getD i 0) ≠ [] :=
      maxAbs_ne_nil _ h0
    have := isPeak_maxAbs _ (show ((List.range L).map (echoLoop id f D L fun i => x.getD i 0)).map
        (· * (maxAbs x / maxAbs ((List.range L).map (echoLoop id f D L fun i => x.getD i 0)))) ≠ []
        by simpa using hne)
    rw [maxAbs_scale, abs_of_pos (by positivity), mul_div_cancel₀ _ h0] at this
    exact this
  · intro i hi
    rw [List.map_map, LFilter.getD_map_range, if_pos (by simpa using hi), Function.comp,
      echoLoop_digital f D L hD _ i (by simpa using hi), mul_comm]

/-- Any saturation that keeps zero: peak and length are kept as well, and before the level is
restored the output follows the recursion of a delay line with saturated feedback. -/
theorem C56_saturated (sat : ℝ → ℝ) (hs : sat 0 = 0) (f : ℝ) (hf : 0 < f) (D : ℕ) (hD : 0 < D)
    (x : List ℝ) (P : ℝ) (hP : IsPeak x P) (hx : P ≠ 0) :
    ∃ y c, ∃ z : ℕ → ℝ, applyDelay sat f D x = some y ∧ 0 < c ∧ x.length < y.length ∧ IsPeak y P ∧
      (∀ i < y.length, y.getD i 0 = c * z i) ∧
      ∀ i < y.length, z i = x.getD i 0 + if D ≤ i then f * sat (z (i - D)) else 0 := by
  have hPx := isPeak_iff x P hP
  subst hPx
  have hnz : ∃ v ∈ x, v ≠ 0 := by
    by_contra hc
    push Not at hc
    exact hx ((maxAbs_zero_iff x).mpr hc)
  have hpad := padding_ge D f hf
  obtain ⟨i, hi, hin⟩ := getD_ne_zero x hnz
  have h0 := maxAbs_map_range _ _ (echoLoop_ne_zero sat hs f D (x.length + padding D f) hD
    (fun i => x.getD i 0) ⟨i, by omega, hin⟩)
  unfold applyDelay
  dsimp only
  generalize hL : x.length + padding D f = L at *
  generalize hz : echoLoop sat f D L (fun i => x.getD i 0) = z at *
  have hr : restorePeak (maxAbs x) ((List.range L).map z)
      = some (((List.range L).map z).map (· * (maxAbs x / maxAbs ((List.range L).map z)))) :=
    if_neg h0
  have hp1 := maxAbs_pos _ h0
  have hp2 := maxAbs_pos _ hx
  refine ⟨_, maxAbs x / maxAbs ((List.range L).map z), z, hr, by positivity, by simp; omega, ?_, ?_,
    ?_⟩
  · have hne : (List.range L).map z ≠ [] := maxAbs_ne_nil _ h0
    have := isPeak_maxAbs _ (show ((List.range L).map z).map
        (· * (maxAbs x / maxAbs ((List.range L).map z))) ≠ [] by simpa using hne)
    rw [maxAbs_scale, abs_of_pos (by positivity), mul_div_cancel₀ _ h0] at this
    exact this
  · intro i hi
    rw [List.map_map, LFilter.getD_map_range, if_pos (by simpa using hi), Function.comp, mul_comm]
  · intro i hi
    rw [← hz]
    exact echoLoop_rec sat f D L hD _ i (by simpa using hi)

/-- The arctan saturation keeps zero and never increases a magnitude. -/
theorem C56_arctan : ∃ sat, setSaturation .arctan = .ok sat ∧ sat 0 = 0 ∧ ∀ x, |sat x| ≤ |x| := by
  refine ⟨_, rfl, by simp, fun x => ?_⟩
  have le_self : ∀ t : ℝ, 0 ≤ t → Real.arctan t ≤ t := by
    intro t ht
    have := Real.le_tan (Real.arctan_nonneg.mpr ht) (Real.arctan_lt_pi_div_two t)
    rwa [Real.tan_arctan] at this
  have h : |Real.arctan (2 * x)| ≤ |2 * x| := by
    rcases le_total 0 (2 * x) with hx | hx
    · rw [abs_of_nonneg hx, abs_of_nonneg (Real.arctan_nonneg.mpr hx)]
      exact le_self _ hx
    · have := le_self (-(2 * x)) (by linarith)
      rw [Real.arctan_neg] at this
      rw [abs_of_nonpos hx, abs_of_nonpos (Real.arctan_le_zero.mpr hx)]
      exact this
  rw [abs_mul, abs_of_pos (by norm_num : (0 : ℝ) < 2)] at h
  rw [abs_mul, abs_of_pos (by norm_num : (0 : ℝ) < 0.5)]
  linarith

/-- With a feedback below one the echoes stay below `P / (1 - f)` for ever. -/
theorem C56_bounded (f : ℝ) (h0 : 0 < f) (h1 : f < 1) (D : ℕ) (hD : 0 < D) (x : ℕ → ℝ) (P : ℝ)
    (hP : ∀ i, |x i| ≤ P) (i : ℕ) : |echoes f D x i| ≤ P / (1 - f) := by
  have hP0 : 0 ≤ P := (abs_nonneg _).trans (hP 0)
  have h1f : 0 < 1 - f := by linarith
  induction i using Nat.strong_induction_on with
  | _ i ih =>
    rw [echoes_rec f D hD x i]
    have key : P + f * (P / (1 - f)) = P / (1 - f) := by field_simp; ring
    by_cases h : D ≤ i
    · rw [if_pos h]
      have := ih (i - D) (by omega)
      calc |x i + f * echoes f D x (i - D)| ≤ |x i| + |f * echoes f D x (i - D)| := abs_add_le _ _
        _ ≤ P + f * (P / (1 - f)) := by
            rw [abs_mul, abs_of_pos h0]
            exact add_le_add (hP i) (mul_le_mul_of_nonneg_left this h0.le)
        _ = P / (1 - f) := key
    · rw [if_neg h, add_zero]
      refine (hP i).trans ?_
      rw [le_div_iff₀ h1f]
      nlinarith

/-! ## Disagreements -/

/-- The feedback is not constrained to values below one: any positive one is accepted, and the
echoes of a unit impulse grow without bound. -/
theorem C56_feedback_not_constrained (f : ℝ) (hf : 1 < f) :
    setDelay (some 300) (some f) = .ok (300, f) ∧
      ∀ (D : ℕ), 0 < D → ∀ B : ℝ, ∃ i, B < echoes f D (fun n => if n = 0 then 1 else 0) i := by
  constructor
  · have : ¬ f ≤ 0 := by linarith
    unfold setDelay
    norm_num [this]
  · intro D hD B
    obtain ⟨k, hk⟩ := pow_unbounded_of_one_lt B hf
    refine ⟨k * D, ?_⟩
    unfold echoes
    rw [Nat.mul_div_cancel _ hD, sum_range_succ, sum_eq_zero]
    · simpa using hk
    · intro j hj
      have hj' := mem_range.mp hj
      have : k * D - j * D ≠ 0 := by
        rw [← Nat.sub_mul]
        exact (Nat.mul_pos (by omega) hD).ne'
      simp only [if_neg this, mul_zero]

/-- `set_parameters` cannot leave a parameter unchanged: `None` raises. -/
theorem C56_none_raises (d f : Option ℝ) :
    setDelay none f = .error .typeError ∧ ∃ e, setDelay d none = .error e := by
  refine ⟨rfl, ?_⟩
  cases d with
  | none => exact ⟨_, rfl⟩
  | some d =>
    unfold setDelay
    by_cases h : 0 < d
    · exact ⟨.typeError, by simp [h]⟩
    · exact ⟨.assertionError, by simp [h]⟩

/-- A callable saturation, documented as possible, raises AttributeError. -/
theorem C56_callable_raises : setSaturation .callable = .error .attributeError := rfl

/-- A delay that rounds to zero samples: the output is the input, neither longer nor delayed. -/
theorem C56_zero_delay (f : ℝ) (hf : 0 < f) (x : List ℝ) (hx : ∃ v ∈ x, v ≠ 0) :
    applyDelay id f 0 x = some x := by
  have h0 : maxAbs x ≠ 0 := by
    obtain ⟨v, hv, hn⟩ := hx
    exact fun h => hn ((maxAbs_zero_iff x).mp h v hv)
  have hpad : padding 0 f = 0 := by simp [padding]
  have hloop : ∀ (n : ℕ) (td : ℕ → ℝ) (i : ℕ),
      (List.range' 0 n).foldl (fun a i => Function.update a i (a i + f * id (a (i - 0)))) td i
        = if i < n then td i * (1 + f) else td i := by
    intro n td
    induction n with
    | zero => intro i; simp
    | succ n ih =>
      intro i
      rw [List.range'_1_concat, List.foldl_append, List.foldl_cons, List.foldl_nil, zero_add]
      by_cases h : i = n
      · subst h
        rw [Function.update_self, Nat.sub_zero, ih i, if_neg (lt_irrefl i), if_pos (Nat.lt_succ_self i),
          id]
        ring
      · rw [Function.update_of_ne h, ih i]
        by_cases h' : i < n
        · rw [if_pos h', if_pos (by omega)]
        · rw [if_neg h', if_neg (by omega)]
  have hl : (List.range x.length).map (echoLoop id f 0 x.length fun i => x.getD i 0)
      = x.map (· * (1 + f)) := by
    refine LFilter.ext_getD _ _ (by simp) fun k hk => ?_
    have hk' : k < x.length := by simpa using hk
    rw [LFilter.getD_map_range, if_pos hk']
    unfold echoLoop
    rw [Nat.sub_zero, hloop, if_pos hk', List.getD_eq_getElem _ _ hk',
      List.getD_eq_getElem _ _ (by simpa using hk'), List.getElem_map]
  have h1 : 0 < 1 + f := by linarith
  unfold applyDelay
  simp only [hpad, add_zero, hl]
  unfold restorePeak
  have hm : maxAbs (x.map (· * (1 + f))) = maxAbs x * (1 + f) := by
    rw [maxAbs_scale, abs_of_pos h1]
  rw [if_neg (by rw [hm]; exact mul_ne_zero h0 h1.ne'), hm, List.map_map]
  congr 1
  conv_rhs => rw [← List.map_id x]
  refine List.map_congr_left fun v _ => ?_
  simp only [Function.comp, id]
  field_simp

/-- A silent channel comes back as `nan`. -/
theorem C56_silence (f : ℝ) (D : ℕ) (n : ℕ) : applyDelay id f D (List.replicate n 0) = none := by
  have hg : (fun i => (List.replicate n (0 : ℝ)).getD i 0) = fun _ => 0 := by
    funext i
    rw [List.getD_eq_getElem?_getD, List.getElem?_replicate]
    split_ifs <;> rfl
  have hloop : ∀ (l : List ℕ), l.foldl
      (fun a i => Function.update a i (a i + f * id (a (i - D)))) (fun _ => (0 : ℝ)) = fun _ => 0 := by
    intro l
    induction l with
    | nil => rfl
    | cons a l ih =>
      rw [List.foldl_cons]
      have : Function.update (fun _ : ℕ => (0 : ℝ)) a (0 + f * id 0) = fun _ => 0 := by
        funext i
        by_cases h : i = a
        · subst h; simp
        · rw [Function.update_of_ne h]
      rw [this, ih]
  unfold applyDelay echoLoop
  simp only [hg, hloop]
  unfold restorePeak
  refine if_pos ((maxAbs_zero_iff _).mpr fun v hv => ?_)
  obtain ⟨i, -, rfl⟩ := List.mem_map.mp hv
  rfl

/-! ## The hypotheses are met -/

example : IsPeak [1 / 2, -3, 1] 3 := by
  refine ⟨?_, -3, by simp, by norm_num⟩
  intro v hv
  simp only [List.mem_cons, List.not_mem_nil, or_false] at hv
  rcases hv with rfl | rfl | rfl <;> norm_num [abs_of_pos, abs_of_neg]

example : setDelay (some 300) (some 0.1) = .ok (300, 0.1) := by
  unfold setDelay
  norm_num

/-- The output has room for the tail: after the end of the input there are at least as many delays
as `1 + 15 f` has, rounded down, and not more than one further delay. -/
theorem C56_tail (sat : ℝ → ℝ) (f : ℝ) (hf : 0 < f) (D : ℕ) (x y : List ℝ)
    (h : applyDelay sat f D x = some y) :
    x.length + D * ⌊1 + f * 15⌋₊ ≤ y.length ∧ y.length ≤ x.length + D * (⌊1 + f * 15⌋₊ + 1) := by
  unfold applyDelay restorePeak at h
  dsimp only at h
  split_ifs at h
  cases h
  have h1 : ((⌊1 + f * 15⌋₊ : ℕ) : ℝ) ≤ 1 + f * 15 := Nat.floor_le (by positivity)
  have h2 : 1 + f * 15 < (⌊1 + f * 15⌋₊ : ℝ) + 1 := Nat.lt_floor_add_one _
  have hD : (0 : ℝ) ≤ D := Nat.cast_nonneg D
  have h3 : D * ⌊1 + f * 15⌋₊ ≤ padding D f := by
    refine Nat.le_floor ?_
    push_cast
    exact mul_le_mul_of_nonneg_left h1 hD
  have h4 : padding D f ≤ D * (⌊1 + f * 15⌋₊ + 1) := by
    refine Nat.floor_le_of_le ?_
    push_cast
    exact mul_le_mul_of_nonneg_left h2.le hD
  simp only [List.length_map, List.length_range]
  omega

end Verif.Echo
