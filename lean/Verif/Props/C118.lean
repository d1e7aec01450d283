import Verif.Model.Activity
import Verif.Spec.SignalChannels
import Verif.Lemmas.SignalData
import Verif.Lemmas.Peak

/-!
# C118: the activity detector
-/

namespace Verif.Activity

open SignalData Smoothing

/-! ### Specification -/

/-- The signal `t` has one real channel with the samples `y`. -/
def Holds (t : State ℝ) (y : List ℝ) : Prop :=
  t.HasShape y.length 1 ∧ t.im = none ∧ ∀ r < y.length, t.sample r 0 = y.getD r 0

/-- Puts two sequences together again, as the marks say. -/
def weave : List Bool → List ℝ → List ℝ → List ℝ
  | [], _, _ => []
  | true :: m, d, n => d.headD 0 :: weave m d.tail n
  | false :: m, d, n => n.headD 0 :: weave m d n.tail

/-- `L` is the exponential average of the squared samples `v` with the factor `r`, which pauses after
samples that are zero. -/
def Average (r : ℝ) (v : ℕ → ℝ) (L : ℕ → ℝ) : Prop :=
  L 0 = 0 ∧ ∀ i, L (i + 1) = if v i = 0 then L i else r * v (i + 1) ^ 2 + (1 - r) * L i

/-- The samples that enter the level: divided by the peak if the threshold is relative. -/
noncomputable def levelled (y : List ℝ) (relative : Bool) (i : ℕ) : ℝ :=
  if relative then y.getD i 0 / Level.maxAbs y else y.getD i 0

/-! ### Picking samples -/

theorem pick_nil (x : List ℝ) : pick [] x = [] := by simp [pick]

theorem pick_true (m : List Bool) (a : ℝ) (x : List ℝ) : pick (true :: m) (a :: x) = a :: pick m x := by
  simp [pick]

theorem pick_false (m : List Bool) (a : ℝ) (x : List ℝ) : pick (false :: m) (a :: x) = pick m x := by
  simp [pick]

theorem weave_pick (m : List Bool) (x : List ℝ) (h : m.length = x.length) :
    weave m (pick m x) (pick (m.map not) x) = x := by
  induction m generalizing x with
  | nil => rw [List.length_nil] at h; rw [List.length_eq_zero_iff.1 h.symm]; rfl
  | cons b m ih =>
    cases x with
    | nil => simp at h
    | cons a x =>
      have h' : m.length = x.length := by simpa using h
      cases b with
      | true =>
        rw [List.map_cons, Bool.not_true, pick_true, pick_false]
        show (a :: pick m x).headD 0 :: weave m (a :: pick m x).tail _ = _
        simp only [List.headD_cons, List.tail_cons, ih x h']
      | false =>
        rw [List.map_cons, Bool.not_false, pick_true, pick_false]
        show (a :: pick (m.map not) x).headD 0 :: weave m _ (a :: pick (m.map not) x).tail = _
        simp only [List.headD_cons, List.tail_cons, ih x h']

theorem pick_length (m : List Bool) (x : List ℝ) (h : m.length = x.length) :
    (pick m x).length = m.count true := by
  induction m generalizing x with
  | nil => simp [pick_nil]
  | cons b m ih =>
    cases x with
    | nil => simp at h
    | cons a x =>
      have h' : m.length = x.length := by simpa using h
      cases b with
      | true => rw [pick_true, List.length_cons, ih x h']; simp
      | false => rw [pick_false, ih x h']; simp

theorem count_not (m : List Bool) : (m.map not).count true = m.count false := by
  induction m with
  | nil => rfl
  | cons b m ih => cases b <;> simp [ih]

theorem count_both (m : List Bool) : m.count true + m.count false = m.length := by
  induction m with
  | nil => rfl
  | cons b m ih => cases b <;> simp <;> omega

theorem bools_ext (l l' : List Bool) (h : l.length = l'.length)
    (h' : ∀ k < l.length, l.getD k false = l'.getD k false) : l = l' := by
  apply List.ext_getElem h
  intro k h1 h2
  have := h' k h1
  rwa [List.getD_eq_getElem _ _ h1, List.getD_eq_getElem _ _ h2] at this

theorem pick_mem (m : List Bool) (x : List ℝ) (v : ℝ) (h : v ∈ pick m x) : v ∈ x := by
  unfold pick at h
  obtain ⟨q, hq, rfl⟩ := List.mem_map.1 h
  exact (List.of_mem_zip (List.mem_of_mem_filter hq)).2

/-! ### Assignment -/

theorem setData_row (constrain : Bool) (n : ℕ) (f : ℕ → ℕ → ℝ) (h2 : 2 ≤ n)
    (hb : constrain = true → ∀ r < n, |f 0 r| ≤ 1) :
    setData (⟨⟨0, 0, fun _ _ => 0⟩, none, constrain, 1⟩ : State ℝ) ⟨1, n, fun _ c => f 0 c, none⟩ =
      .ok ⟨⟨n, 1, fun r _ => f 0 r⟩, none, constrain, 1⟩ := by
  have hset := setData_ok (⟨⟨0, 0, fun _ _ => 0⟩, none, constrain, 1⟩ : State ℝ)
    ⟨n, 1, fun r _ => f 0 r, none⟩ (by show 1 ≤ n; omega)
    (by show ¬ (n = 1 ∧ 1 = 1); omega) (by
      intro hc
      exact ⟨le_rfl, fun r hr c _ => hb hc r hr, fun f hf => absurd hf (by simp)⟩)
  have hform : standardForm (⟨1, n, fun _ c => f 0 c, none⟩ : Input ℝ) =
      standardForm ⟨n, 1, fun r _ => f 0 r, none⟩ := by
    rw [standardForm_ok (⟨n, 1, fun r _ => f 0 r, none⟩ : Input ℝ) (by show 1 ≤ n; omega)
      (by show ¬ (n = 1 ∧ 1 = 1); omega)]
    unfold standardForm
    rw [if_neg (by show ¬ (1 = 1 ∧ n = 1); omega)]
    simp only [if_true, Input.T, Option.map_none]
    rw [if_neg (by omega)]
  unfold setData at hset ⊢
  rw [hform]
  exact hset

theorem assign_two (constrain : Bool) (y : List ℝ) (h2 : 2 ≤ y.length)
    (hb : constrain = true → ∀ v ∈ y, |v| ≤ 1) :
    ∃ t, assign constrain y = .ok t ∧ Holds t y := by
  have h := setData_row constrain y.length (fun _ c => y.getD c 0) h2 (by
    intro hc r hr
    rw [List.getD_eq_getElem _ _ hr]
    exact hb hc _ (List.getElem_mem hr))
  refine ⟨⟨⟨y.length, 1, fun r _ => y.getD r 0⟩, none, constrain, 1⟩, ?_, ⟨rfl, rfl⟩, rfl,
    fun r hr => ?_⟩
  · unfold assign
    dsimp only
    rw [h]
  · simp [State.sample, hr]

theorem assign_one (constrain : Bool) (y : List ℝ) (h1 : y.length = 1) :
    assign constrain y = .error .indexError := by
  unfold assign
  dsimp only
  have : setData (⟨⟨0, 0, fun _ _ => 0⟩, none, constrain, 1⟩ : State ℝ)
      ⟨1, y.length, fun _ c => y.getD c 0, none⟩ = .error .indexError := by
    unfold setData standardForm
    rw [if_pos ⟨rfl, h1⟩]
  rw [this]

theorem assign_none (y : List ℝ) (h0 : y.length = 0) :
    ∃ t, assign true y = .ok t ∧ t.HasShape 500 1 ∧ ∀ r c, t.sample r c = 0 := by
  have h1 : setData (⟨⟨0, 0, fun _ _ => 0⟩, none, true, 1⟩ : State ℝ)
      ⟨1, y.length, fun _ c => y.getD c 0, none⟩ = .error .valueError := by
    unfold setData standardForm
    rw [h0]
    simp [Input.T]
  obtain ⟨n, hn⟩ : ∃ n, n = 500 := ⟨500, rfl⟩
  have h2 := setData_row true n (fun _ _ => 0) (by omega) (by intro _ _ _; simp)
  refine ⟨⟨⟨n, 1, fun _ _ => 0⟩, none, true, 1⟩, ?_, ⟨hn, rfl⟩, fun r c => ?_⟩
  · unfold assign
    dsimp only
    rw [h1, ← hn]
    exact h2
  · unfold State.sample
    split_ifs <;> rfl

/-! ### The indices -/

theorem indicesAbove_length (x : List ℝ) (thr a r : ℝ) (nrm : Bool) (idx : List Bool)
    (h : indicesAbove x thr a r nrm = .ok idx) : idx.length = x.length := by
  unfold indicesAbove at h
  split_ifs at h
  · rw [← Except.ok.inj h]; simp
  · rw [← Except.ok.inj h]; simp
  · rw [← Except.ok.inj h]; simp

theorem momentary_attack (a a' r : ℝ) (p : ℕ → ℝ) (hp : ∀ i, 0 ≤ p i) (i : ℕ) :
    momentary a r p i = momentary a' r p i := by
  induction i with
  | zero => rfl
  | succ i ih =>
    unfold momentary
    rw [ih, if_neg (not_lt.2 (hp i)), if_neg (not_lt.2 (hp i))]

theorem indicesAbove_attack (x : List ℝ) (thr a a' r : ℝ) (nrm : Bool) :
    indicesAbove x thr a r nrm = indicesAbove x thr a' r nrm := by
  unfold indicesAbove
  dsimp only
  split_ifs
  · rfl
  · rfl
  all_goals
    congr 2
    funext i
    rw [momentary_attack a a' r _ (fun i => sq_nonneg _)]

theorem momentary_average (a r : ℝ) (v : ℕ → ℝ) : Average r v (momentary a r fun i => v i ^ 2) := by
  refine ⟨rfl, fun i => ?_⟩
  conv_lhs => unfold momentary
  dsimp only
  rw [if_neg (not_lt.2 (sq_nonneg (v i)))]
  by_cases h : v i = 0
  · rw [if_pos h, if_neg (by rw [h]; simp)]
    ring
  · rw [if_neg h, if_pos (by positivity)]

theorem average_unique (r : ℝ) (v : ℕ → ℝ) (L L' : ℕ → ℝ) (h : Average r v L) (h' : Average r v L')
    (i : ℕ) : L i = L' i := by
  induction i with
  | zero => rw [h.1, h'.1]
  | succ i ih => rw [h.2, h'.2, ih]

/-- Without exceptions the result consists of the indices, and of the picked samples. -/
theorem detector_ok (x : List ℝ) (constrain : Bool) (fs thr : ℝ) (rel : Bool)
    (filt : List ℝ → List ℝ) (aMs rMs : ℝ) (ht : thr < 0) (ha : 0 ≤ aMs) (hr : 0 ≤ rMs)
    (idx : List Bool)
    (hi : indicesAbove (filt x) thr (factorOr (aMs / 1000) fs) (factorOr (rMs / 1000) fs) rel =
      .ok idx) :
    activityDetector x constrain fs thr rel filt aMs rMs =
      match assign constrain (pick idx x) with
      | .error e => .error e
      | .ok d =>
        match assign constrain (pick (idx.map not) x) with
        | .error e => .error e
        | .ok n => .ok (d, n, idx) := by
  unfold activityDetector
  rw [if_neg (not_not.2 ht), if_neg (not_not.2 hr), if_neg (not_not.2 ha)]
  simp only [hi]
  rfl

/-! ### The properties -/

/-- Detected signal and noise are the samples of the channel that the indices say, in order and
unchanged, so that the channel can be put together again; this holds whenever each part has two
samples at least. -/
theorem C118_partition_partial (x : List ℝ) (constrain : Bool) (fs thr : ℝ) (rel : Bool)
    (filt : List ℝ → List ℝ) (hf : (filt x).length = x.length) (aMs rMs : ℝ)
    (hb : constrain = true → ∀ v ∈ x, |v| ≤ 1) (d n : State ℝ) (idx : List Bool)
    (h : activityDetector x constrain fs thr rel filt aMs rMs = .ok (d, n, idx))
    (h1 : 2 ≤ idx.count true) (h2 : 2 ≤ idx.count false) :
    idx.length = x.length ∧ ∃ D N : List ℝ, Holds d D ∧ Holds n N ∧ D.length = idx.count true ∧
      N.length = idx.count false ∧ weave idx D N = x := by
  unfold activityDetector at h
  split_ifs at h
  split at h
  · simp at h
  · rename_i idx' hi
    have hl := indicesAbove_length _ _ _ _ _ _ hi
    rw [hf] at hl
    split at h
    · simp at h
    · rename_i d' hd
      split at h
      · simp at h
      · rename_i n' hn
        obtain ⟨rfl, h'⟩ := Prod.mk.inj (Except.ok.inj h)
        obtain ⟨rfl, rfl⟩ := Prod.mk.inj h'
        refine ⟨hl, pick idx' x, pick (idx'.map not) x, ?_, ?_, pick_length _ _ hl, ?_,
          weave_pick _ _ hl⟩
        · obtain ⟨t, ht, hh⟩ := assign_two constrain (pick idx' x) (by rw [pick_length _ _ hl]; exact h1)
            (fun hc v hv => hb hc v (pick_mem _ _ v hv))
          rw [ht] at hd
          rw [← Except.ok.inj hd]
          exact hh
        · obtain ⟨t, ht, hh⟩ := assign_two constrain (pick (idx'.map not) x)
            (by rw [pick_length _ _ (by simpa using hl), count_not]; exact h2)
            (fun hc v hv => hb hc v (pick_mem _ _ v hv))
          rw [ht] at hn
          rw [← Except.ok.inj hn]
          exact hh
        · rw [pick_length _ _ (by simpa using hl), count_not]

/-- What is returned otherwise: if a part consists of a single sample, the call fails with an
IndexError. -/
theorem C118_single_wrong (x : List ℝ) (constrain : Bool) (fs thr : ℝ) (rel : Bool)
    (filt : List ℝ → List ℝ) (hf : (filt x).length = x.length) (aMs rMs : ℝ)
    (hb : constrain = true → ∀ v ∈ x, |v| ≤ 1) (ht : thr < 0) (ha : 0 ≤ aMs) (hr : 0 ≤ rMs)
    (idx : List Bool)
    (hi : indicesAbove (filt x) thr (factorOr (aMs / 1000) fs) (factorOr (rMs / 1000) fs) rel =
      .ok idx) (h2 : 2 ≤ idx.count true) (h1 : idx.count false = 1) :
    activityDetector x constrain fs thr rel filt aMs rMs = .error .indexError := by
  rw [detector_ok x constrain fs thr rel filt aMs rMs ht ha hr idx hi]
  have hl := indicesAbove_length _ _ _ _ _ _ hi
  rw [hf] at hl
  obtain ⟨t, h3, -⟩ := assign_two constrain (pick idx x) (by rw [pick_length _ _ hl]; exact h2)
    (fun hc v hv => hb hc v (pick_mem _ _ v hv))
  have h4 := assign_one constrain (pick (idx.map not) x)
    (by rw [pick_length _ _ (by simpa using hl), count_not]; exact h1)
  rw [h3]
  simp only [h4]

theorem factor_range (t fs : ℝ) (hfs : 0 < fs) : 0 < factorOr t fs ∧ factorOr t fs ≤ 1 := by
  unfold factorOr emaFactor
  split_ifs with h
  · have h1 : Real.log (1 - 0.95) < 0 := Real.log_neg (by norm_num) (by norm_num)
    have h2 : Real.log (1 - 0.95) / t / fs < 0 := div_neg_of_neg_of_pos (div_neg_of_neg_of_pos h1 h) hfs
    have h3 : Real.exp (Real.log (1 - 0.95) / t / fs) < 1 := by simpa using Real.exp_lt_exp.2 h2
    have h4 := Real.exp_pos (Real.log (1 - 0.95) / t / fs)
    constructor <;> linarith
  · constructor <;> norm_num

theorem average_nonneg (r : ℝ) (h0 : 0 ≤ r) (h1 : r ≤ 1) (v L : ℕ → ℝ) (h : Average r v L) (i : ℕ) :
    0 ≤ L i := by
  induction i with
  | zero => rw [h.1]
  | succ i ih =>
    rw [h.2]
    split_ifs
    · exact ih
    · have : 0 ≤ 1 - r := by linarith
      positivity

theorem above_iff (thr y : ℝ) (hy : 0 ≤ y) :
    (thr : WithBot ℝ) < Level.logDb 10 y ↔ (10 : ℝ) ^ (thr / 10) < y := by
  unfold Level.logDb
  have hp : (0 : ℝ) < 10 ^ (thr / 10) := by positivity
  split_ifs with h
  · subst h
    simp only [not_lt_bot, false_iff, not_lt]
    exact hp.le
  · have hy' : 0 < y := lt_of_le_of_ne hy (Ne.symm h)
    rw [WithBot.coe_lt_coe, ← Real.lt_logb_iff_rpow_lt (by norm_num) hy', div_lt_iff₀ (by norm_num)]
    constructor <;> intro h' <;> linarith

/-- The list of the indices. -/
theorem indices_eq (y : List ℝ) (hy : y ≠ []) (thr a r : ℝ) (rel : Bool) (h0 : 0 ≤ r) (h1 : r ≤ 1)
    (L : ℕ → ℝ) (hL : Average r (levelled y rel) L) (idx : List Bool)
    (h : indicesAbove y thr a r rel = .ok idx) (hz : rel = true → Level.maxAbs y ≠ 0) (i : ℕ)
    (hi : i < y.length) : idx.getD i false = true ↔ (10 : ℝ) ^ (thr / 10) < L i := by
  unfold indicesAbove at h
  rw [if_neg (by tauto), if_neg (by tauto)] at h
  dsimp only at h
  rw [← Except.ok.inj h]
  rw [List.getD_eq_getElem _ _ (by simpa using hi)]
  simp only [List.getElem_map, List.getElem_range, decide_eq_true_eq]
  have hv : (fun i => ((if rel then y.map fun a => a / Level.maxAbs y else y).getD i 0) ^ 2) =
      fun i => levelled y rel i ^ 2 := by
    funext i
    congr 1
    unfold levelled
    cases rel with
    | false => simp
    | true =>
      simp only [if_true]
      rcases lt_or_ge i y.length with h | h
      · rw [List.getD_eq_getElem _ _ (by simpa using h), List.getD_eq_getElem _ _ h]
        simp
      · rw [List.getD_eq_default _ _ (by simpa using h), List.getD_eq_default _ _ h, zero_div]
  rw [hv, average_unique r _ _ L (momentary_average a r (levelled y rel)) hL i,
    above_iff _ _ (average_nonneg r h0 h1 _ L hL i)]

theorem detector_indices (x : List ℝ) (constrain : Bool) (fs thr : ℝ) (rel : Bool)
    (filt : List ℝ → List ℝ) (aMs rMs : ℝ) (d n : State ℝ) (idx : List Bool)
    (h : activityDetector x constrain fs thr rel filt aMs rMs = .ok (d, n, idx)) :
    indicesAbove (filt x) thr (factorOr (aMs / 1000) fs) (factorOr (rMs / 1000) fs) rel = .ok idx := by
  unfold activityDetector at h
  split_ifs at h
  split at h
  · simp at h
  · rename_i idx' hi
    split at h
    · simp at h
    · split at h
      · simp at h
      · have h' := (Prod.mk.inj (Except.ok.inj h)).2
        rw [hi, (Prod.mk.inj h').2]

/-- The indices: sample `i` is active if the exponential average of the squared samples (divided by
the peak, if so requested) is above the threshold; nothing is active in a silent signal. -/
theorem C118_indices (x : List ℝ) (constrain : Bool) (fs thr : ℝ) (hfs : 0 < fs) (rel : Bool)
    (filt : List ℝ → List ℝ) (aMs rMs : ℝ) (d n : State ℝ) (idx : List Bool)
    (h : activityDetector x constrain fs thr rel filt aMs rMs = .ok (d, n, idx)) :
    idx.length = (filt x).length ∧
    (Level.maxAbs (filt x) = 0 → ∀ i, idx.getD i false = false) ∧
    (Level.maxAbs (filt x) ≠ 0 → ∀ L, Average (factorOr (rMs / 1000) fs) (levelled (filt x) rel) L →
        ∀ i < (filt x).length, (idx.getD i false = true ↔ (10 : ℝ) ^ (thr / 10) < L i)) := by
  have hi := detector_indices _ _ _ _ _ _ _ _ _ _ _ h
  have hr := factor_range (rMs / 1000) fs hfs
  have hl := indicesAbove_length _ _ _ _ _ _ hi
  refine ⟨hl, fun hz i => ?_, fun hz L hL i hil => ?_⟩
  · rcases lt_or_ge i (filt x).length with hil | hil
    · cases rel with
      | true =>
        unfold indicesAbove at hi
        have hne : filt x ≠ [] := by
          rintro h0
          rw [h0] at hil
          simp at hil
        rw [if_neg (by tauto), if_pos ⟨rfl, hz⟩] at hi
        rw [← Except.ok.inj hi, List.getD_eq_getElem _ _ (by simpa using hil)]
        simp
      | false =>
        have hne : filt x ≠ [] := by
          rintro h0
          rw [h0] at hil
          simp at hil
        have hzero : ∀ i, levelled (filt x) false i = 0 := by
          intro i
          simp only [levelled, Bool.false_eq_true, if_false]
          rcases lt_or_ge i (filt x).length with h | h
          · rw [List.getD_eq_getElem _ _ h]
            have := Level.le_maxAbs (filt x) _ (List.getElem_mem h)
            rw [hz] at this
            exact abs_eq_zero.1 (le_antisymm this (abs_nonneg _))
          · exact List.getD_eq_default _ _ h
        have := indices_eq (filt x) hne thr _ _ false hr.1.le hr.2 (fun _ => 0)
          ⟨rfl, fun i => by rw [if_pos (hzero i)]⟩ idx hi (by simp) i hil
        rw [← Bool.not_eq_true, this, not_lt]
        positivity
    · exact List.getD_eq_default _ _ (by omega)
  · refine indices_eq (filt x) (Level.maxAbs_ne_nil _ hz) thr _ _ rel hr.1.le hr.2 L hL idx hi
      (fun _ => hz) i hil

/-- For samples that are not zero the average is the usual one: weights that decrease
geometrically. -/
theorem C118_average (r : ℝ) (v : ℕ → ℝ) (hv : ∀ i, v i ≠ 0) :
    Average r v fun i => ∑ j ∈ Finset.range i, r * (1 - r) ^ (i - 1 - j) * v (j + 1) ^ 2 := by
  refine ⟨rfl, fun i => ?_⟩
  beta_reduce
  rw [if_neg (hv i), Finset.sum_range_succ, Finset.mul_sum, add_comm]
  congr 1
  · simp
  · refine Finset.sum_congr rfl fun j hj => ?_
    have hj' := Finset.mem_range.1 hj
    rw [show i + 1 - 1 - j = i - 1 - j + 1 by omega, pow_succ]
    ring

/-- The first sample is never active. -/
theorem C118_first (x : List ℝ) (constrain : Bool) (fs thr : ℝ) (hfs : 0 < fs) (rel : Bool)
    (filt : List ℝ → List ℝ) (aMs rMs : ℝ) (d n : State ℝ) (idx : List Bool)
    (h : activityDetector x constrain fs thr rel filt aMs rMs = .ok (d, n, idx)) :
    idx.getD 0 false = false := by
  obtain ⟨hl, h1, h2⟩ := C118_indices x constrain fs thr hfs rel filt aMs rMs d n idx h
  by_cases hz : Level.maxAbs (filt x) = 0
  · exact h1 hz 0
  · have hne := Level.maxAbs_ne_nil _ hz
    have hL := momentary_average 0 (factorOr (rMs / 1000) fs) (levelled (filt x) rel)
    have := h2 hz _ hL 0 (List.length_pos_iff.2 hne)
    rw [← Bool.not_eq_true, this, hL.1, not_lt]
    positivity

/-- A higher threshold never makes a sample active. -/
theorem C118_threshold (x : List ℝ) (constrain : Bool) (fs thr thr' : ℝ) (hfs : 0 < fs)
    (hle : thr ≤ thr') (rel : Bool) (filt : List ℝ → List ℝ) (aMs rMs : ℝ) (d n d' n' : State ℝ)
    (idx idx' : List Bool)
    (h : activityDetector x constrain fs thr rel filt aMs rMs = .ok (d, n, idx))
    (h' : activityDetector x constrain fs thr' rel filt aMs rMs = .ok (d', n', idx')) (i : ℕ)
    (hi : idx'.getD i false = true) : idx.getD i false = true := by
  obtain ⟨hl, h1, h2⟩ := C118_indices x constrain fs thr hfs rel filt aMs rMs d n idx h
  obtain ⟨hl', h1', h2'⟩ := C118_indices x constrain fs thr' hfs rel filt aMs rMs d' n' idx' h'
  have hil : i < (filt x).length := by
    by_contra hc
    rw [List.getD_eq_default _ _ (by omega)] at hi
    simp at hi
  by_cases hz : Level.maxAbs (filt x) = 0
  · rw [h1' hz i] at hi
    simp at hi
  · have hL := momentary_average 0 (factorOr (rMs / 1000) fs) (levelled (filt x) rel)
    rw [h2 hz _ hL i hil]
    refine lt_of_le_of_lt ?_ ((h2' hz _ hL i hil).1 hi)
    exact Real.rpow_le_rpow_of_exponent_le (by norm_num) (by linarith)

/-- With a threshold relative to the peak, neither the level nor the polarity matters. -/
theorem C118_gain (x : List ℝ) (constrain constrain' : Bool) (fs thr : ℝ) (hfs : 0 < fs)
    (filt : List ℝ → List ℝ) (c : ℝ) (hc : c ≠ 0)
    (hf : filt (x.map (c * ·)) = (filt x).map (c * ·)) (aMs rMs : ℝ) (d n d' n' : State ℝ)
    (idx idx' : List Bool)
    (h : activityDetector x constrain fs thr true filt aMs rMs = .ok (d, n, idx))
    (h' : activityDetector (x.map (c * ·)) constrain' fs thr true filt aMs rMs = .ok (d', n', idx')) :
    idx' = idx := by
  obtain ⟨hl, h1, h2⟩ := C118_indices x constrain fs thr hfs true filt aMs rMs d n idx h
  obtain ⟨hl', h1', h2'⟩ := C118_indices _ constrain' fs thr hfs true filt aMs rMs d' n' idx' h'
  have hm : Level.maxAbs (filt (x.map (c * ·))) = Level.maxAbs (filt x) * |c| := by
    rw [hf, ← Level.maxAbs_scale]
    congr 1
    exact List.map_congr_left fun a _ => mul_comm _ _
  have hlen : (filt (x.map (c * ·))).length = (filt x).length := by rw [hf, List.length_map]
  refine bools_ext _ _ (by rw [hl, hl', hlen]) fun i hi => ?_
  by_cases hz : Level.maxAbs (filt x) = 0
  · rw [h1 hz i, h1' (by rw [hm, hz, zero_mul]) i]
  · have hz' : Level.maxAbs (filt (x.map (c * ·))) ≠ 0 := by
      rw [hm]
      exact mul_ne_zero hz (abs_ne_zero.2 hc)
    have hL := momentary_average 0 (factorOr (rMs / 1000) fs) (levelled (filt x) true)
    have hv : ∀ i, levelled (filt (x.map (c * ·))) true i = c / |c| * levelled (filt x) true i := by
      intro i
      unfold levelled
      rw [if_pos rfl, if_pos rfl, hm, hf]
      have : ((filt x).map (c * ·)).getD i 0 = c * (filt x).getD i 0 := by
        rcases lt_or_ge i (filt x).length with h | h
        · rw [List.getD_eq_getElem _ _ (by simpa using h), List.getD_eq_getElem _ _ h, List.getElem_map]
        · rw [List.getD_eq_default _ _ (by simpa using h), List.getD_eq_default _ _ h, mul_zero]
      rw [this]
      have := abs_ne_zero.2 hc
      field_simp
    have hs : (c / |c|) ^ 2 = 1 := by
      rw [div_pow, sq_abs, div_self (pow_ne_zero 2 hc)]
    have hc' : c / |c| ≠ 0 := div_ne_zero hc (abs_ne_zero.2 hc)
    have hL' : Average (factorOr (rMs / 1000) fs) (levelled (filt (x.map (c * ·))) true)
        (momentary 0 (factorOr (rMs / 1000) fs) fun i => levelled (filt x) true i ^ 2) := by
      refine ⟨hL.1, fun i => ?_⟩
      rw [hL.2 i, hv, hv, mul_pow, hs, one_mul]
      simp only [mul_eq_zero, hc', false_or]
    rw [Bool.eq_iff_iff, h2 hz _ hL i (by omega), h2' hz' _ hL' i (by omega)]

/-- The attack time is without any effect. -/
theorem C118_attack_wrong (x : List ℝ) (constrain : Bool) (fs thr : ℝ) (rel : Bool)
    (filt : List ℝ → List ℝ) (aMs aMs' rMs : ℝ) (ha : 0 ≤ aMs) (ha' : 0 ≤ aMs') :
    activityDetector x constrain fs thr rel filt aMs rMs =
      activityDetector x constrain fs thr rel filt aMs' rMs := by
  unfold activityDetector
  rw [if_neg (not_not.2 ha), if_neg (not_not.2 ha'), indicesAbove_attack _ _ _ (factorOr (aMs' / 1000) fs)]

/-- Digital silence is never released: if all samples from `m` on are zero, they are all active or all
inactive, whatever the release time. -/
theorem C118_silence_wrong (x : List ℝ) (constrain : Bool) (fs thr : ℝ) (hfs : 0 < fs) (rel : Bool)
    (filt : List ℝ → List ℝ) (aMs rMs : ℝ) (d n : State ℝ) (idx : List Bool)
    (h : activityDetector x constrain fs thr rel filt aMs rMs = .ok (d, n, idx)) (m : ℕ)
    (hm : ∀ i, m ≤ i → (filt x).getD i 0 = 0) (i : ℕ) (him : m ≤ i) (hi : i < (filt x).length) :
    idx.getD i false = idx.getD m false := by
  obtain ⟨hl, h1, h2⟩ := C118_indices x constrain fs thr hfs rel filt aMs rMs d n idx h
  by_cases hz : Level.maxAbs (filt x) = 0
  · rw [h1 hz i, h1 hz m]
  · have hL := momentary_average 0 (factorOr (rMs / 1000) fs) (levelled (filt x) rel)
    have hconst : ∀ k, momentary 0 (factorOr (rMs / 1000) fs)
        (fun i => levelled (filt x) rel i ^ 2) (m + k) =
        momentary 0 (factorOr (rMs / 1000) fs) (fun i => levelled (filt x) rel i ^ 2) m := by
      intro k
      induction k with
      | zero => rfl
      | succ k ih =>
        have := hL.2 (m + k)
        rw [if_pos (by unfold levelled; rw [hm _ (by omega)]; simp)] at this
        rw [← ih]
        exact this
    have e1 := h2 hz _ hL i hi
    have e2 := h2 hz _ hL m (by omega)
    rw [show i = m + (i - m) by omega] at e1 ⊢
    rw [hconst] at e1
    rw [Bool.eq_iff_iff, e1, e2]

/-- A signal without any activity: the detected signal consists of 500 zeros. -/
theorem C118_none (x : List ℝ) (fs thr : ℝ) (rel : Bool)
    (filt : List ℝ → List ℝ) (hf : (filt x).length = x.length) (h2 : 2 ≤ x.length) (aMs rMs : ℝ)
    (hb : ∀ v ∈ x, |v| ≤ 1) (ht : thr < 0) (ha : 0 ≤ aMs) (hr : 0 ≤ rMs) (idx : List Bool)
    (hi : indicesAbove (filt x) thr (factorOr (aMs / 1000) fs) (factorOr (rMs / 1000) fs) rel =
      .ok idx) (h0 : idx.count true = 0) :
    ∃ d n, activityDetector x true fs thr rel filt aMs rMs = .ok (d, n, idx) ∧
      d.HasShape 500 1 ∧ (∀ r c, d.sample r c = 0) ∧ Holds n x := by
  rw [detector_ok x true fs thr rel filt aMs rMs ht ha hr idx hi]
  have hl := indicesAbove_length _ _ _ _ _ _ hi
  rw [hf] at hl
  obtain ⟨d, hd, hd1, hd2⟩ := assign_none (pick idx x) (by rw [pick_length _ _ hl]; exact h0)
  have hN : pick (idx.map not) x = x := by
    have h1 := weave_pick idx x hl
    have h3 : ∀ (m : List Bool) (D N : List ℝ), m.count true = 0 → N.length = m.length →
        weave m D N = N := by
      intro m
      induction m with
      | nil => intro D N _ hN; rw [List.length_eq_zero_iff.1 hN]; rfl
      | cons b m ih =>
        intro D N hc hN
        cases b with
        | true => simp at hc
        | false =>
          cases N with
          | nil => simp at hN
          | cons a N =>
            show a :: weave m D N = a :: N
            rw [ih D N (by simpa using hc) (by simpa using hN)]
    rw [h3 idx _ _ h0] at h1
    · exact h1
    · rw [pick_length _ _ (by simpa using hl), count_not]
      have h5 := count_both idx
      omega
  obtain ⟨n, hn, hh⟩ := assign_two true x h2 (fun _ => hb)
  refine ⟨d, n, ?_, hd1, hd2, hh⟩
  rw [hd, hN]
  simp only [hn]

/-! ### Concrete cases -/

theorem ones_indices (n : ℕ) (thr : ℝ) (ht : thr < 0) (idx : List Bool)
    (h : indicesAbove (List.replicate (n + 1) 1) thr 1 1 true = .ok idx) :
    idx = false :: List.replicate n true := by
  have hmax : Level.maxAbs (List.replicate (n + 1) (1 : ℝ)) = 1 := by
    refine (Level.isPeak_iff _ 1 ⟨fun v hv => ?_, 1, ?_, by simp⟩).symm
    · rw [List.eq_of_mem_replicate hv]; simp
    · simp
  have hl := indicesAbove_length _ _ _ _ _ _ h
  have hv : ∀ i < n + 1, levelled (List.replicate (n + 1) 1) true i = 1 := by
    intro i hi
    unfold levelled
    rw [if_pos rfl, hmax, List.getD_eq_getElem _ _ (by simpa using hi)]
    simp
  have hp : (10 : ℝ) ^ (thr / 10) < 1 :=
    Real.rpow_lt_one_of_one_lt_of_neg (by norm_num) (by linarith)
  have hL := momentary_average 1 1 (levelled (List.replicate (n + 1) 1) true)
  have hi := fun i hi => indices_eq (List.replicate (n + 1) 1) (by simp) thr 1 1 true (by norm_num)
    le_rfl _ hL idx h (by rw [hmax]; simp) i hi
  refine bools_ext _ _ (by rw [hl]; simp) fun i hil => ?_
  have hil' : i < n + 1 := by rw [hl] at hil; simpa using hil
  rw [Bool.eq_iff_iff, hi i (by simpa using hil')]
  cases i with
  | zero =>
    rw [hL.1]
    simp only [List.getD_cons_zero, Bool.false_eq_true, iff_false, not_lt]
    positivity
  | succ i =>
    have hs := hL.2 i
    rw [hv i (by omega), hv (i + 1) hil', if_neg one_ne_zero] at hs
    rw [hs, List.getD_cons_succ, List.getD_eq_getElem _ _ (by simp; omega)]
    simpa using hp

/-- A constant signal of at least three samples, all of them at full scale, with a release time of
zero: the first sample alone is noise, and the call fails. -/
theorem C118_constant_wrong (n : ℕ) (constrain : Bool) (fs thr aMs : ℝ) (ht : thr < 0)
    (ha : 0 ≤ aMs) :
    activityDetector (List.replicate (n + 3) 1) constrain fs thr true id aMs 0 =
      .error .indexError := by
  rw [C118_attack_wrong _ _ _ _ _ _ aMs 0 _ ha le_rfl]
  have hf : factorOr (0 / 1000) fs = 1 := by simp [factorOr]
  have hi : ∃ idx, indicesAbove (List.replicate (n + 3) 1) thr 1 1 true = .ok idx := by
    unfold indicesAbove
    by_cases h2 : Level.maxAbs (List.replicate (n + 3) (1 : ℝ)) = 0
    · rw [if_neg (by simp), if_pos ⟨rfl, h2⟩]
      exact ⟨_, rfl⟩
    · rw [if_neg (by simp), if_neg (by tauto)]
      exact ⟨_, rfl⟩
  obtain ⟨idx, hi⟩ := hi
  have e := ones_indices (n + 2) thr ht idx hi
  refine C118_single_wrong _ constrain fs thr true id rfl 0 0 (fun _ v hv => ?_) ht le_rfl le_rfl idx
    (by rw [hf]; exact hi) ?_ ?_
  · rw [List.eq_of_mem_replicate hv]; simp
  · rw [e]; simp
  · rw [e]; simp [List.count_replicate]

theorem burst_indices :
    indicesAbove [0, 1, 1, 1] (-10) 1 1 true = .ok [false, false, true, true] := by
  have hmax : Level.maxAbs [0, 1, 1, 1] = 1 := by
    simp [Level.maxAbs]
  obtain ⟨idx, h⟩ : ∃ idx, indicesAbove [0, 1, 1, 1] (-10) 1 1 true = .ok idx := by
    unfold indicesAbove
    rw [if_neg (by simp), if_neg (by rw [hmax]; simp)]
    exact ⟨_, rfl⟩
  rw [h]
  congr 1
  have hl := indicesAbove_length _ _ _ _ _ _ h
  have hL : Average 1 (levelled [0, 1, 1, 1] true) fun i => if i = 2 ∨ i = 3 then 1 else 0 := by
    refine ⟨by simp, fun i => ?_⟩
    unfold levelled
    rw [if_pos rfl, if_pos rfl, hmax]
    rcases i with _ | _ | _ | _ | i
    · simp
    · simp
    · simp
    · simp
    · simp
  have hi := fun i hi => indices_eq [0, 1, 1, 1] (by simp) (-10) 1 1 true (by norm_num)
    le_rfl _ hL idx h (by rw [hmax]; simp) i hi
  have hp : (10 : ℝ) ^ ((-10 : ℝ) / 10) < 1 :=
    Real.rpow_lt_one_of_one_lt_of_neg (by norm_num) (by norm_num)
  have hp' : ¬ (10 : ℝ) ^ ((-10 : ℝ) / 10) < 0 := not_lt.2 (by positivity)
  refine bools_ext _ _ (by rw [hl]; simp) fun i hil => ?_
  rw [hl] at hil
  have hil' : i < 4 := hil
  rw [Bool.eq_iff_iff, hi i hil]
  interval_cases i
  · exact iff_of_false (by rw [if_neg (by decide)]; exact hp') (by decide)
  · exact iff_of_false (by rw [if_neg (by decide)]; exact hp') (by decide)
  · exact iff_of_true (by rw [if_pos (by decide)]; exact hp) rfl
  · exact iff_of_true (by rw [if_pos (by decide)]; exact hp) rfl

/-- A signal that is active in part: the hypotheses of the theorems above are met. -/
example : ∃ d n, activityDetector [0, 1, 1, 1] false 48000 (-10) true id 1 0 =
    .ok (d, n, [false, false, true, true]) := by
  rw [C118_attack_wrong _ _ _ _ _ _ 1 0 _ (by norm_num) le_rfl]
  have hf : factorOr (0 / 1000) 48000 = 1 := by simp [factorOr]
  rw [detector_ok _ _ _ _ _ _ _ _ (by norm_num) le_rfl le_rfl [false, false, true, true]
    (by rw [hf]; exact burst_indices)]
  obtain ⟨d, hd, -⟩ := assign_two false (pick [false, false, true, true] [0, 1, 1, 1])
    (by simp [pick]) (by simp)
  obtain ⟨n, hn, -⟩ := assign_two false (pick ([false, false, true, true].map not) [0, 1, 1, 1])
    (by simp [pick]) (by simp)
  rw [hd]
  simp only [hn]
  exact ⟨d, n, rfl⟩

/-- Thresholds that are not negative and negative times are refused. -/
theorem C118_rejects (x : List ℝ) (constrain : Bool) (fs thr : ℝ) (rel : Bool)
    (filt : List ℝ → List ℝ) (aMs rMs : ℝ) (h : 0 ≤ thr ∨ aMs < 0 ∨ rMs < 0) :
    activityDetector x constrain fs thr rel filt aMs rMs = .error .assertionError := by
  unfold activityDetector
  split_ifs with h1 h2 h3
  · rcases h with h | h | h <;> linarith
  · rfl
  · rfl
  · rfl

end Verif.Activity
