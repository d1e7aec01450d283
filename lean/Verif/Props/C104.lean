import Verif.Lemmas.OctaveSmoothing
import Mathlib.Analysis.SpecialFunctions.Trigonometric.Bounds

/-!
# C104: fractional octave smoothing
-/

namespace Verif.OctaveSmoothing

/-- A window type without negative samples. -/
def Averaging (w : ℕ → List ℝ) : Prop :=
  ∀ n, n % 2 = 1 → (w n).length = n ∧ (∀ x ∈ w n, 0 ≤ x) ∧ 0 < (w n).sum

/-- The default window is one. -/
theorem C104_hann : Averaging hann := by
  intro n hn
  unfold hann
  by_cases h1 : n = 1
  · rw [if_pos h1]
    simp [h1]
  · rw [if_neg h1]
    have hnn : ∀ x ∈ (List.range n).map fun i : ℕ =>
        0.5 - 0.5 * Real.cos (2 * Real.pi * i / (n - 1)), 0 ≤ x := by
      intro x hx
      obtain ⟨i, -, rfl⟩ := List.mem_map.mp hx
      have := Real.cos_le_one (2 * Real.pi * i / ((n : ℝ) - 1))
      linarith
    refine ⟨by simp, hnn, ?_⟩
    apply lt_of_lt_of_le one_pos
    refine List.single_le_sum hnn 1 ?_
    rw [List.mem_map]
    refine ⟨n / 2, by rw [List.mem_range]; omega, ?_⟩
    obtain ⟨m, rfl⟩ : ∃ m, n = 2 * m + 1 := ⟨n / 2, by omega⟩
    have hm : (m : ℝ) ≠ 0 := by
      have : m ≠ 0 := by omega
      exact_mod_cast this
    rw [show (2 * m + 1) / 2 = m by omega]
    push_cast
    rw [show 2 * Real.pi * m / (2 * (m : ℝ) + 1 - 1) = Real.pi by field_simp; ring, Real.cos_pi]
    norm_num

theorem odd_form {n : ℕ} (h : n % 2 = 1) : n = 2 * (n / 2) + 1 := by omega

/-- The smoothed vector before the way back to the linear grid. -/
theorem valid_between (w : List ℝ) (N h : ℕ) (v : ℕ → ℝ) (lo hi : ℝ) (hN : 0 < N)
    (hw : w.length = 2 * h + 1) (hnn : ∀ x ∈ w, 0 ≤ x) (hs : 0 < w.sum)
    (hv : ∀ i < N, lo ≤ v i ∧ v i ≤ hi) :
    (valid (normalised w) (N + 2 * h) (pad h N v)).length = N ∧
    ∀ i < N, lo ≤ (valid (normalised w) (N + 2 * h) (pad h N v)).getD i 0 ∧
      (valid (normalised w) (N + 2 * h) (pad h N v)).getD i 0 ≤ hi := by
  rw [valid_eq _ N h v hN (by simpa [normalised] using hw)]
  refine ⟨by simp, fun i hi' => ?_⟩
  rw [List.getD_eq_getElem _ _ (by simpa using hi'), List.getElem_map, List.getElem_range]
  apply mean_between
  · intro j hj
    rw [Finset.mem_range] at hj
    rw [getD_normalised w j (by omega), List.getD_eq_getElem _ _ (by omega)]
    exact div_nonneg (hnn _ (List.getElem_mem _)) hs.le
  · rw [← hw, Finset.sum_congr rfl fun j hj => getD_normalised w j (Finset.mem_range.mp hj),
      ← Finset.sum_div, sum_getD, div_self hs.ne']
  · intro j _
    exact hv _ (by omega)

theorem grid_increasing (N : ℕ) (hN : 2 ≤ N) : Increasing ((List.range N).map (logGrid N)) := by
  intro i j hij hj
  rw [List.length_map, List.length_range] at hj
  rw [List.getD_eq_getElem _ _ (by simpa using lt_trans hij hj),
    List.getD_eq_getElem _ _ (by simpa using hj), List.getElem_map, List.getElem_map,
    List.getElem_range, List.getElem_range]
  exact logGrid_mono N hN hij

/-- Smoothing with a window without negative samples: every vector (of at least two values on the
linear grid) is answered with a vector of the same length, and no value leaves the range of the
input.  In particular constant vectors are not changed. -/
theorem C104_range (v : List ℝ) (spacing : Option ℝ) (fractions : ℕ) (w : ℕ → List ℝ)
    (hw : Averaging w) (hv : v ≠ []) (hl : spacing = none → 2 ≤ v.length) :
    ∃ r w', smooth v spacing fractions (.type w) false = .ok (some r, w') ∧ r.length = v.length ∧
      ∀ lo hi, (∀ x ∈ v, lo ≤ x ∧ x ≤ hi) → ∀ x ∈ r, lo ≤ x ∧ x ≤ hi := by
  have hpos : 0 < v.length := List.length_pos_of_ne_nil hv
  have hget : ∀ lo hi, (∀ x ∈ v, lo ≤ x ∧ x ≤ hi) → ∀ i < v.length,
      lo ≤ v.getD i 0 ∧ v.getD i 0 ≤ hi := by
    intro lo hi h i hi'
    rw [List.getD_eq_getElem _ _ hi']
    exact h _ (List.getElem_mem _)
  unfold smooth
  cases spacing with
  | none =>
    have h2 := hl rfl
    dsimp only [windowOf]
    rw [if_neg (by omega)]
    generalize hn : windowLength fractions (Real.logb 2 (logGrid v.length 1)) = n
    have hodd : n % 2 = 1 := by rw [← hn]; exact windowLength_odd _ _
    obtain ⟨h3, h4, h5⟩ := hw n hodd
    have hlen : (w n).length = 2 * (n / 2) + 1 := by rw [h3]; exact odd_form hodd
    have key : ∀ lo hi, (∀ x ∈ v, lo ≤ x ∧ x ≤ hi) → _ := fun lo hi h =>
      valid_between (w n) v.length (n / 2)
        (fun k => pchip v.length (fun i => v.getD i 0) (logGrid v.length k)) lo hi hpos hlen h4 h5
        (fun i hi' => pchip_between _ _ _ _ _ h2 (logGrid_range _ h2 hi').1
          (logGrid_range _ h2 hi').2 (hget lo hi h))
    have hlen' : (valid (normalised (w n)) (v.length + 2 * (n / 2)) (pad (n / 2) v.length
        (fun k => pchip v.length (fun i => v.getD i 0) (logGrid v.length k)))).length =
        v.length := by
      rw [valid_eq _ _ _ _ hpos (by simpa [normalised] using hlen)]
      simp
    rw [if_neg (not_not.mpr hlen'), if_neg h5.ne', if_neg (by simp)]
    refine ⟨_, _, rfl, by simp, ?_⟩
    intro lo hi h x hx
    obtain ⟨i, hi', rfl⟩ := List.mem_map.mp hx
    rw [List.mem_range] at hi'
    have e0 : ((List.range v.length).map (logGrid v.length)).getD 0 0 = 1 := by
      rw [List.getD_eq_getElem _ _ (by simpa using hpos), List.getElem_map, List.getElem_range,
        logGrid_zero]
    have e1 : ((List.range v.length).map (logGrid v.length)).getD
        (((List.range v.length).map (logGrid v.length)).length - 1) 0 = v.length := by
      rw [List.length_map, List.length_range, List.getD_eq_getElem _ _ (by simp; omega),
        List.getElem_map, List.getElem_range, logGrid_last _ h2]
    refine interpLinear_between _ _ _ lo hi (grid_increasing _ h2) (by simpa using h2) ?_ ?_
      (by rw [hlen']; simp) ?_
    · rw [e0]
      have : (0 : ℝ) ≤ i := Nat.cast_nonneg i
      linarith
    · rw [e1]
      exact_mod_cast (by omega : i + 1 ≤ v.length)
    · rw [hlen']
      exact (key lo hi h).2
  | some beta =>
    dsimp only [windowOf]
    rw [if_neg (by omega)]
    generalize hn : windowLength fractions beta = n
    have hodd : n % 2 = 1 := by rw [← hn]; exact windowLength_odd _ _
    obtain ⟨h3, h4, h5⟩ := hw n hodd
    have hlen : (w n).length = 2 * (n / 2) + 1 := by rw [h3]; exact odd_form hodd
    have hlen' : (valid (normalised (w n)) (v.length + 2 * (n / 2)) (pad (n / 2) v.length
        (fun i => v.getD i 0))).length = v.length := by
      rw [valid_eq _ _ _ _ hpos (by simpa [normalised] using hlen)]
      simp
    rw [if_neg h5.ne', if_neg (by simp)]
    refine ⟨_, _, rfl, hlen', ?_⟩
    intro lo hi h x hx
    obtain ⟨i, hi', rfl⟩ := List.getElem_of_mem hx
    have := (valid_between (w n) v.length (n / 2) (fun i => v.getD i 0) lo hi hpos hlen h4 h5
      (hget lo hi h)).2 i (by rw [hlen'] at hi'; exact hi')
    rwa [List.getD_eq_getElem _ _ hi'] at this

/-- A constant vector stays as it is. -/
theorem C104_constant (c : ℝ) (N : ℕ) (spacing : Option ℝ) (fractions : ℕ) (w : ℕ → List ℝ)
    (hw : Averaging w) (hN : 2 ≤ N) :
    ∃ w', smooth (List.replicate N c) spacing fractions (.type w) false =
      .ok (some (List.replicate N c), w') := by
  obtain ⟨r, w', h, hl, hr⟩ := C104_range (List.replicate N c) spacing fractions w hw
    (by intro e; have := congrArg List.length e; simp at this; omega) (fun _ => by simpa using hN)
  refine ⟨w', ?_⟩
  rw [h]
  congr 3
  rw [List.eq_replicate_iff]
  refine ⟨by simpa using hl, fun x hx => ?_⟩
  have := hr c c (by intro y hy; rw [List.eq_of_mem_replicate hy]; exact ⟨le_rfl, le_rfl⟩) x hx
  exact le_antisymm this.2 this.1

/-- The entry at the position `t`, the first (last) one before (behind) the vector. -/
noncomputable def clamped (v : List ℝ) (t : ℤ) : ℝ := v.getD (max 0 (min t (v.length - 1))).toNat 0

/-- On a logarithmic grid, every value becomes the weighted mean of its neighbours on both sides,
and the width of the window differs from the fraction of an octave by less than two bins. -/
theorem C104_logarithmic (v : List ℝ) (beta : ℝ) (fractions : ℕ) (w : ℕ → List ℝ)
    (hw : Averaging w) (hv : v ≠ []) (hb : 0 < beta) (hf : 0 < fractions) :
    ∃ r w' h, smooth v (some beta) fractions (.type w) false = .ok (some r, w') ∧
      |(2 * h + 1 : ℕ) * beta - 1 / fractions| < 2 * beta ∧
      ∀ i < v.length, r.getD i 0 * (w (2 * h + 1)).sum = ∑ j ∈ Finset.range (2 * h + 1),
        (w (2 * h + 1)).getD j 0 * clamped v ((i : ℤ) + h - j) := by
  have hpos : 0 < v.length := List.length_pos_of_ne_nil hv
  generalize hn : windowLength fractions beta = n
  have hodd : n % 2 = 1 := by rw [← hn]; exact windowLength_odd _ _
  obtain ⟨h3, h4, h5⟩ := hw n hodd
  have hform := odd_form hodd
  have hlen : (w n).length = 2 * (n / 2) + 1 := by omega
  unfold smooth
  dsimp only [windowOf]
  rw [if_neg (by omega), hn, if_neg h5.ne', if_neg (by simp)]
  refine ⟨_, _, n / 2, rfl, ?_, ?_⟩
  · rw [← hform]
    unfold windowLength at hn
    dsimp only at hn
    have hf' : (0 : ℝ) < fractions := by exact_mod_cast hf
    have hx : 0 < (fractions : ℝ) * beta := mul_pos hf' hb
    generalize hm : ⌊1 / ((fractions : ℝ) * beta) + 0.5⌋₊ = m at hn
    have ha : (m : ℝ) ≤ 1 / (fractions * beta) + 0.5 := by
      rw [← hm]
      exact Nat.floor_le (by positivity)
    have hb' : 1 / (fractions * beta) + 0.5 < (m : ℝ) + 1 := by
      rw [← hm]
      exact Nat.lt_floor_add_one _
    have hmn : (m : ℝ) ≤ n ∧ (n : ℝ) ≤ m + 1 := by
      constructor
      · exact_mod_cast (by omega : m ≤ n)
      · exact_mod_cast (by omega : n ≤ m + 1)
    have e : (1 : ℝ) / fractions = 1 / (fractions * beta) * beta := by field_simp
    rw [e, ← sub_mul, abs_mul, abs_of_pos hb]
    apply mul_lt_mul_of_pos_right _ hb
    rw [abs_lt]
    constructor <;> linarith
  · intro i hi
    rw [← hform, valid_eq _ _ _ _ hpos (by simpa [normalised] using hlen),
      List.getD_eq_getElem _ _ (by simpa using hi), List.getElem_map, List.getElem_range,
      Finset.sum_mul, ← hform]
    apply Finset.sum_congr rfl
    intro j hj
    rw [Finset.mem_range] at hj
    rw [getD_normalised _ _ (by omega)]
    have : clamped v ((i : ℤ) + (n / 2 : ℕ) - j) = v.getD (min (i + n / 2 - j) (v.length - 1)) 0 := by
      unfold clamped
      congr 1
      omega
    rw [this]
    field_simp

/-- With clipping, the result is the one without clipping, and negative values are 0. -/
theorem C104_clip (v : List ℝ) (spacing : Option ℝ) (fractions : ℕ) (win : Win) (r w' : List ℝ)
    (h : smooth v spacing fractions win false = .ok (some r, w')) :
    smooth v spacing fractions win true = .ok (some (r.map fun x => max x 0), w') := by
  unfold smooth at h ⊢
  cases spacing with
  | none =>
    simp only [Bool.false_eq_true, if_false, if_true] at h ⊢
    split_ifs at h ⊢ with h1 h2 h3
    · injection h with h
      injection h with ha hb
      cases ha
    · injection h with h
      injection h with ha hb
      injection ha with ha
      subst ha hb
      rfl
  | some beta =>
    simp only [Bool.false_eq_true, if_false, if_true] at h ⊢
    split_ifs at h ⊢ with h1 h2
    · injection h with h
      injection h with ha hb
      cases ha
    · injection h with h
      injection h with ha hb
      injection ha with ha
      subst ha hb
      rfl

/-- A single value on the linear grid and an empty vector are refused. -/
theorem C104_refused (v : List ℝ) (spacing : Option ℝ) (fractions : ℕ) (win : Win) (clip : Bool)
    (h : v = [] ∨ spacing = none ∧ v.length < 2) :
    ∃ e, smooth v spacing fractions win clip = .error e := by
  unfold smooth
  cases spacing with
  | none =>
    dsimp only
    rw [if_pos (by rcases h with rfl | h; simp; exact h.2)]
    exact ⟨_, rfl⟩
  | some beta =>
    rcases h with rfl | ⟨h, -⟩
    · exact ⟨_, rfl⟩
    · cases h

/-- The array given as window is changed by the call: afterwards its sum is 1. -/
theorem C104_window_of_the_caller_is_modified (v : List ℝ) (spacing : Option ℝ) (fractions : ℕ)
    (w : List ℝ) (clip : Bool) (r w' : List ℝ)
    (h : smooth v spacing fractions (.vec w) clip = .ok (some r, w')) :
    w'.sum = 1 ∧ (w.sum ≠ 1 → w' ≠ w) := by
  have hs : w.sum ≠ 0 ∧ w' = normalised w := by
    unfold smooth at h
    cases spacing with
    | none =>
      dsimp only [windowOf] at h
      split_ifs at h with h1 h2 h3
      · injection h with h
        injection h with h' _
        cases h'
      all_goals
        injection h with h
        injection h with _ h
        exact ⟨h3, h.symm⟩
    | some beta =>
      dsimp only [windowOf] at h
      split_ifs at h with h1 h2
      · injection h with h
        injection h with h' _
        cases h'
      all_goals
        injection h with h
        injection h with _ h
        exact ⟨h2, h.symm⟩
  obtain ⟨h1, rfl⟩ := hs
  have e : (normalised w).sum = 1 := by
    rw [← sum_getD]
    have : (normalised w).length = w.length := by simp [normalised]
    rw [this, Finset.sum_congr rfl fun j hj => getD_normalised w j (Finset.mem_range.mp hj),
      ← Finset.sum_div, sum_getD, div_self h1]
  refine ⟨e, fun hne he => hne ?_⟩
  rw [he] at e
  exact e

/-- A given window which has not the length chosen by the function: on a logarithmic grid, the result
has another length than the input, and on the linear grid the call fails. -/
theorem C104_other_window_length (v : List ℝ) (fractions : ℕ) (w : List ℝ) (clip : Bool)
    (hv : 2 ≤ v.length) (hs : w.sum ≠ 0) :
    (∀ beta, w.length ≠ windowLength fractions beta →
      w.length ≤ v.length + windowLength fractions beta - 1 →
      ∃ r w', smooth v (some beta) fractions (.vec w) clip = .ok (some r, w') ∧
        r.length ≠ v.length) ∧
    (w.length ≠ windowLength fractions (Real.logb 2 (logGrid v.length 1)) →
      w.length ≤ v.length + windowLength fractions (Real.logb 2 (logGrid v.length 1)) - 1 →
      smooth v none fractions (.vec w) clip = .error .valueError) := by
  constructor
  · intro beta h1 h2
    have hodd := windowLength_odd fractions beta
    unfold smooth
    dsimp only [windowOf]
    rw [if_neg (by omega), if_neg hs]
    refine ⟨_, _, rfl, ?_⟩
    have : (valid (normalised w) (v.length + 2 * (windowLength fractions beta / 2))
        (pad (windowLength fractions beta / 2) v.length fun i => v.getD i 0)).length ≠
        v.length := by
      unfold valid
      rw [List.length_map, List.length_range, show (normalised w).length = w.length by
        simp [normalised]]
      omega
    split_ifs
    · rw [List.length_map]; exact this
    · exact this
  · intro h1 h2
    have hodd := windowLength_odd fractions (Real.logb 2 (logGrid v.length 1))
    unfold smooth
    dsimp only [windowOf]
    rw [if_neg (by omega), if_pos]
    unfold valid
    rw [List.length_map, List.length_range, show (normalised w).length = w.length by
      simp [normalised]]
    omega

/-- Non-trivial cases. -/
example : ∃ r w', smooth [1, 5, 2, 0] none 3 (.type hann) false = .ok (some r, w') ∧
    r.length = 4 ∧ ∀ x ∈ r, 0 ≤ x ∧ x ≤ 5 := by
  obtain ⟨r, w', h, hl, hr⟩ := C104_range [1, 5, 2, 0] none 3 hann C104_hann (by simp) (by simp)
  refine ⟨r, w', h, hl, hr 0 5 ?_⟩
  intro x hx
  simp only [List.mem_cons, List.not_mem_nil, or_false] at hx
  rcases hx with rfl | rfl | rfl | rfl <;> norm_num

end Verif.OctaveSmoothing
