import Verif.Model.Distortion
import Verif.Lemmas.Peak
import Mathlib.Tactic.NormNum
import Mathlib.Tactic.FieldSimp
import Mathlib.Tactic.Ring

/-!
# C54: the distortion effect
-/

namespace Verif.Distortion

open Verif.Level

/-! ## Helper lemmas -/

theorem restorePeak_some (P : ℝ) (y : List ℝ) (h : maxAbs y ≠ 0) :
    restorePeak P y = some (y.map (· * (P / maxAbs y))) := if_neg h

theorem restorePeak_ok (P : ℝ) (y z : List ℝ) (hP : 0 ≤ P) (h : restorePeak P y = some z) :
    maxAbs z = P ∧ z.length = y.length := by
  unfold restorePeak at h
  by_cases h0 : maxAbs y = 0
  · rw [if_pos h0] at h; cases h
  rw [if_neg h0] at h
  cases h
  refine ⟨?_, by simp⟩
  have hp := maxAbs_pos y h0
  rw [maxAbs_scale, abs_of_nonneg (by positivity)]
  field_simp

theorem stage_length (k : Kind) (l o : ℝ) (x y : List ℝ) (h : stage k l o x = some y) :
    y.length = x.length := by
  have hn : ∀ z, normalized x = some z → z.length = x.length := by
    intro z hz
    unfold normalized at hz
    by_cases h0 : maxAbs x = 0
    · rw [if_pos h0] at hz; cases hz
    · rw [if_neg h0] at hz; cases hz; simp
  cases k <;> simp only [stage, Option.map_eq_some_iff, Option.some.injEq] at h
  · obtain ⟨z, hz, rfl⟩ := h; simp [hn z hz]
  · obtain ⟨z, hz, rfl⟩ := h; simp [hn z hz]
  · obtain ⟨z, hz, rfl⟩ := h; simp [hn z hz]
  · rw [h]

theorem contribution_ok (x z : List ℝ) (e : Entry) (h : contribution x e = some z) :
    maxAbs z = maxAbs x ∧ z.length = x.length := by
  unfold contribution at h
  cases hs : stage e.kind (fromDb e.level_db true) (offsetLin e.offset_db) x with
  | none => rw [hs] at h; cases h
  | some y =>
    rw [hs] at h
    have := restorePeak_ok _ _ _ (maxAbs_nonneg x) h
    refine ⟨this.1, ?_⟩
    rw [this.2, List.length_map, stage_length _ _ _ _ _ hs]

theorem zipWith_zero (z : List ℝ) :
    List.zipWith (· + ·) (List.replicate z.length (0 : ℝ)) z = z := by
  induction z with
  | nil => rfl
  | cons a z ih => simp only [List.length_cons, List.replicate_succ, List.zipWith_cons_cons, ih,
      zero_add]

theorem maxAbs_add_le (a b : List ℝ) (h : a.length = b.length) :
    maxAbs (List.zipWith (· + ·) a b) ≤ maxAbs a + maxAbs b := by
  induction a generalizing b with
  | nil => simp [maxAbs_nil, maxAbs_nonneg]
  | cons p a ih =>
    cases b with
    | nil => cases h
    | cons q b =>
      have := ih b (by simpa using h)
      simp only [List.zipWith_cons_cons, maxAbs_cons]
      refine max_le ?_ ?_
      · exact (abs_add_le p q).trans (add_le_add (le_max_left _ _) (le_max_left _ _))
      · exact this.trans (add_le_add (le_max_right _ _) (le_max_right _ _))

theorem foldl_none (x : List ℝ) (es : List Entry) :
    es.foldl (fun acc e => addArr acc (contribution x e)) none = none := by
  induction es with
  | nil => rfl
  | cons e es ih => simpa [List.foldl_cons, addArr] using ih

theorem fold_bound (x : List ℝ) (es : List Entry) (a y : List ℝ) (ha : a.length = x.length)
    (h : es.foldl (fun acc e => addArr acc (contribution x e)) (some a) = some y) :
    y.length = x.length ∧ maxAbs y ≤ maxAbs a + es.length * maxAbs x := by
  induction es generalizing a with
  | nil => cases h; exact ⟨ha, by simp⟩
  | cons e es ih =>
    rw [List.foldl_cons] at h
    cases hc : contribution x e with
    | none =>
      rw [hc] at h
      rw [show addArr (some a) none = none from rfl, foldl_none] at h
      cases h
    | some z =>
      rw [hc] at h
      obtain ⟨h1, h2⟩ := contribution_ok x z e hc
      have hl : a.length = z.length := by rw [ha, h2]
      obtain ⟨g1, g2⟩ := ih (List.zipWith (· + ·) a z) (by simp [ha, h2]) h
      refine ⟨g1, g2.trans ?_⟩
      have := maxAbs_add_le a z hl
      rw [h1] at this
      rw [List.length_cons, Nat.cast_add, Nat.cast_one]
      linarith

theorem maxAbs_replicate (n : ℕ) : maxAbs (List.replicate n 0) = 0 :=
  (maxAbs_zero_iff _).mpr fun _ hv => (List.mem_replicate.mp hv).2

theorem normalized_scale (x : List ℝ) (c : ℝ) (hc : 0 < c) :
    normalized (x.map (· * c)) = normalized x := by
  unfold normalized
  have hs : maxAbs (x.map (· * c)) = maxAbs x * c := by rw [maxAbs_scale, abs_of_pos hc]
  by_cases h0 : maxAbs x = 0
  · rw [if_pos h0, if_pos (by rw [hs, h0, zero_mul])]
  · rw [if_neg h0, if_neg (by rw [hs]; exact mul_ne_zero h0 hc.ne'), List.map_map]
    congr 1
    refine List.map_congr_left fun v _ => ?_
    simp only [Function.comp, hs]
    field_simp

theorem restorePeak_scale (P : ℝ) (y : List ℝ) (c : ℝ) :
    restorePeak (P * c) y = (restorePeak P y).map (·.map (· * c)) := by
  unfold restorePeak
  by_cases h0 : maxAbs y = 0
  · rw [if_pos h0, if_pos h0]; rfl
  · rw [if_neg h0, if_neg h0, Option.map_some, List.map_map]
    congr 1
    refine List.map_congr_left fun v _ => ?_
    simp only [Function.comp]
    field_simp

/-- A positive factor in front of the restoration has no effect. -/
theorem restorePeak_factor (P : ℝ) (y : List ℝ) (m : ℝ) (hm : 0 < m) :
    restorePeak P (y.map (· * m)) = restorePeak P y := by
  unfold restorePeak
  have hs : maxAbs (y.map (· * m)) = maxAbs y * m := by rw [maxAbs_scale, abs_of_pos hm]
  by_cases h0 : maxAbs y = 0
  · rw [if_pos h0, if_pos (by rw [hs, h0, zero_mul])]
  · rw [if_neg h0, if_neg (by rw [hs]; exact mul_ne_zero h0 hm.ne'), List.map_map]
    congr 1
    refine List.map_congr_left fun v _ => ?_
    simp only [Function.comp, hs]
    field_simp

theorem contribution_scale (x : List ℝ) (e : Entry) (c : ℝ) (hc : 0 < c) :
    contribution (x.map (· * c)) e = (contribution x e).map (·.map (· * c)) := by
  have hs : maxAbs (x.map (· * c)) = maxAbs x * c := by rw [maxAbs_scale, abs_of_pos hc]
  unfold contribution
  cases hk : e.kind with
  | noDistortion =>
    simp only [stage, hs, restorePeak_scale]
    have : (x.map (· * c)).map (· * e.mix) = (x.map (· * e.mix)).map (· * c) := by
      rw [List.map_map, List.map_map]
      exact List.map_congr_left fun v _ => by simp only [Function.comp]; ring
    rw [this, restorePeak_factor _ _ _ hc]
  | arctan =>
    simp only [stage, normalized_scale x c hc, hs]
    cases normalized x with
    | none => rfl
    | some z => simp only [Option.map_some, restorePeak_scale]
  | hardClip =>
    simp only [stage, normalized_scale x c hc, hs]
    cases normalized x with
    | none => rfl
    | some z => simp only [Option.map_some, restorePeak_scale]
  | softClip =>
    simp only [stage, normalized_scale x c hc, hs]
    cases normalized x with
    | none => rfl
    | some z => simp only [Option.map_some, restorePeak_scale]

theorem addArr_scale (a b : Option (List ℝ)) (c : ℝ) :
    addArr (a.map (·.map (· * c))) (b.map (·.map (· * c))) = (addArr a b).map (·.map (· * c)) := by
  cases a with
  | none => rfl
  | some a =>
    cases b with
    | none => rfl
    | some b =>
      simp only [Option.map_some, addArr, List.zipWith_map, List.map_zipWith, Option.some.injEq]
      congr 1
      funext p q
      ring

theorem fold_scale (x : List ℝ) (es : List Entry) (c : ℝ) (hc : 0 < c) (a : Option (List ℝ)) :
    es.foldl (fun acc e => addArr acc (contribution (x.map (· * c)) e)) (a.map (·.map (· * c)))
      = (es.foldl (fun acc e => addArr acc (contribution x e)) a).map (·.map (· * c)) := by
  induction es generalizing a with
  | nil => rfl
  | cons e es ih =>
    rw [List.foldl_cons, List.foldl_cons, contribution_scale x e c hc, addArr_scale, ih]

theorem gainFactor_pos (g : ℝ) : (0 : ℝ) < 10 ^ (g / 20) := by positivity

/-- What `setParameters` makes of a single distortion with the given mix. -/
theorem setParameters_single (k : Kind) (l m : ℝ) (o : Option ℝ) (hm : m ≤ 100) :
    setParameters [k] [l] [m] [o] = .ok [⟨k, m / 100, l, o⟩, ⟨.noDistortion, 1 - m / 100, 0, none⟩] := by
  have h1 : ¬ ∃ v ∈ [m], 100 < v := by
    rintro ⟨v, hv, h⟩
    rw [List.mem_singleton.mp hv] at h
    exact absurd hm (not_le.mpr h)
  have h2 : closeToOne ([m / 100] ++ [1 - m / 100]).sum := by
    have : ([m / 100] ++ [1 - m / 100]).sum = 1 := by simp
    rw [this]
    unfold closeToOne
    norm_num
  unfold setParameters
  rw [if_neg h1]
  simp only [List.length_cons, List.length_nil, zero_add, List.map_cons, List.map_nil, true_and,
    if_true, List.getD_cons_zero]
  rw [if_neg (by simp), if_neg (by simp), if_neg (by simpa using h2), if_neg (by simp),
    if_neg (by simp)]
  rfl

/-! ## The property -/

/-- Two or more distortions are accepted exactly if every list has as many entries, no mix exceeds 100 % and the
mixes add up to 100 % within `np.isclose` (about 0.001 %); the entries are then the given ones. -/
theorem C54_accepts (kinds : List Kind) (levels mix : List ℝ) (offsets : List (Option ℝ)) (hk : kinds.length ≠ 1) :
    (((∀ m ∈ mix, m ≤ 100) ∧ kinds.length = mix.length ∧ |mix.sum - 100| ≤ 1001 / 1000000 ∧
        kinds.length = levels.length ∧ kinds.length = offsets.length) →
      setParameters kinds levels mix offsets = .ok ((kinds.zip (mix.map (· / 100))).zip (levels.zip offsets) |>.map
        fun p => ⟨p.1.1, p.1.2, p.2.1, p.2.2⟩)) ∧
    (¬ ((∀ m ∈ mix, m ≤ 100) ∧ kinds.length = mix.length ∧ |mix.sum - 100| ≤ 1001 / 1000000 ∧
        kinds.length = levels.length ∧ kinds.length = offsets.length) →
      setParameters kinds levels mix offsets = .error .assertionError) := by
  have hc : closeToOne (mix.map (· / 100)).sum ↔ |mix.sum - 100| ≤ 1001 / 1000000 := by
    have hs : (mix.map (· / 100)).sum = mix.sum / 100 := by
      induction mix with
      | nil => simp
      | cons a l ih => rw [List.map_cons, List.sum_cons, List.sum_cons, ih]; ring
    unfold closeToOne
    rw [hs, show mix.sum / 100 - 1 = (mix.sum - 100) / 100 by ring, abs_div, abs_of_pos (by norm_num : (0 : ℝ) < 100),
      div_le_iff₀ (by norm_num)]
    norm_num
  have hm : (∃ m ∈ mix, 100 < m) ↔ ¬ ∀ m ∈ mix, m ≤ 100 := by
    push Not
    rfl
  unfold setParameters
  simp only [hk, false_and, if_false, hm, hc, List.length_map]
  constructor
  · rintro ⟨h1, h2, h3, h4, h5⟩
    rw [if_neg (not_not.2 h1), if_neg (not_not.2 h2), if_neg (not_not.2 h3), if_neg (not_not.2 h4),
      if_neg (not_not.2 h5)]
  · intro h
    by_cases h1 : ∀ m ∈ mix, m ≤ 100
    · rw [if_neg (not_not.2 h1)]
      by_cases h2 : kinds.length = mix.length
      · rw [if_neg (not_not.2 h2)]
        by_cases h3 : |mix.sum - 100| ≤ 1001 / 1000000
        · rw [if_neg (not_not.2 h3)]
          by_cases h4 : kinds.length = levels.length
          · rw [if_neg (not_not.2 h4), if_pos fun h5 => h ⟨h1, h2, h3, h4, h5⟩]
          · rw [if_pos h4]
        · rw [if_pos h3]
      · rw [if_pos h2]
    · rw [if_pos h1]

example : |([30, 70] : List ℝ).sum - 100| ≤ 1001 / 1000000 := by norm_num

/-- A single distortion at full mix keeps the peak of every channel, up to the post gain, and the
number of samples: whenever the result is a signal of numbers. -/
theorem C54_single_peak_partial (k : Kind) (l g : ℝ) (o : Option ℝ) (es : List Entry) (x y : List ℝ)
    (P : ℝ) (hP : IsPeak x P)
    (hs : setParameters [k] [l] [100] [o] = .ok es) (h : apply es (some g) x = some y) :
    y.length = x.length ∧ IsPeak y (P * 10 ^ (g / 20)) := by
  rw [setParameters_single k l 100 o le_rfl] at hs
  cases hs
  have hPx := isPeak_iff x P hP
  have hx : x ≠ [] := by
    obtain ⟨-, v, hv, -⟩ := hP
    exact List.ne_nil_of_mem hv
  unfold apply at h
  simp only [Option.map_eq_some_iff] at h
  obtain ⟨w, hw, rfl⟩ := h
  have hf : ([⟨k, 100 / 100, l, o⟩, ⟨.noDistortion, 1 - 100 / 100, 0, none⟩] : List Entry).filter
      (fun e => decide (e.mix ≠ 0)) = [⟨k, 100 / 100, l, o⟩] := by
    norm_num [List.filter_cons]
  rw [hf, List.foldl_cons, List.foldl_nil] at hw
  cases hc : contribution x ⟨k, 100 / 100, l, o⟩ with
  | none => rw [hc] at hw; cases hw
  | some z =>
    rw [hc] at hw
    obtain ⟨h1, h2⟩ := contribution_ok x z _ hc
    simp only [addArr, ← h2, zipWith_zero, Option.some.injEq] at hw
    subst hw
    refine ⟨by simp [h2], ?_⟩
    have hz : z ≠ [] := by
      intro hz; rw [hz] at h2; exact hx (List.length_eq_zero_iff.mp h2.symm)
    have := isPeak_maxAbs (z.map (· * 10 ^ (g / 20))) (by simpa using hz)
    rwa [maxAbs_scale, abs_of_pos (gainFactor_pos g), h1, ← hPx] at this

/-- Without an offset the arctan and hard clip distortions give numbers for every channel that is
not silent (so the previous theorem is not empty). -/
theorem C54_defined (k : Kind) (hk : k = .arctan ∨ k = .hardClip ∨ k = .noDistortion) (l g : ℝ)
    (es : List Entry) (x : List ℝ) (hx : ∃ v ∈ x, v ≠ 0)
    (hs : setParameters [k] [l] [100] [none] = .ok es) :
    ∃ y, apply es (some g) x = some y := by
  rw [setParameters_single k l 100 none le_rfl] at hs
  cases hs
  obtain ⟨v0, hv0, hv0n⟩ := hx
  have h0 : maxAbs x ≠ 0 := fun h => hv0n ((maxAbs_zero_iff x).mp h v0 hv0)
  have hp := maxAbs_pos x h0
  obtain ⟨v, hv, hva⟩ := maxAbs_attained x (maxAbs_ne_nil x h0)
  have hl : 0 < fromDb l true := by unfold fromDb; positivity
  have hvn : v / maxAbs x * fromDb l true + 0 ≠ 0 := by
    have : v ≠ 0 := by rintro rfl; rw [abs_zero] at hva; exact h0 hva.symm
    rw [add_zero]
    positivity
  have hf : ([⟨k, 100 / 100, l, none⟩, ⟨.noDistortion, 1 - 100 / 100, 0, none⟩] : List Entry).filter
      (fun e => decide (e.mix ≠ 0)) = [⟨k, 100 / 100, l, none⟩] := by
    norm_num [List.filter_cons]
  have key : ∃ z, contribution x ⟨k, 100 / 100, l, none⟩ = some z := by
    have gen : ∀ f : ℝ → ℝ, f (v / maxAbs x) ≠ 0 →
        maxAbs ((x.map (· / maxAbs x)).map f |>.map (· * (100 / 100 : ℝ))) ≠ 0 := by
      intro f hf hm
      have := (maxAbs_zero_iff _).mp hm (f (v / maxAbs x) * (100 / 100))
        (List.mem_map.mpr ⟨_, List.mem_map.mpr ⟨_, List.mem_map.mpr ⟨v, hv, rfl⟩, rfl⟩, rfl⟩)
      norm_num at this
      exact hf this
    unfold contribution
    rcases hk with rfl | rfl | rfl
    · simp only [stage, normalized, if_neg h0, Option.map_some]
      refine ⟨_, restorePeak_some _ _ (gen _ ?_)⟩
      unfold arctanCurve offsetLin
      refine mul_ne_zero (fun h => hvn (Real.arctan_eq_zero_iff.mp h)) ?_
      positivity
    · simp only [stage, normalized, if_neg h0, Option.map_some]
      refine ⟨_, restorePeak_some _ _ (gen _ ?_)⟩
      unfold hardCurve offsetLin clip
      intro h
      rcases lt_or_gt_of_ne hvn with h' | h'
      · have : max (v / maxAbs x * fromDb l true + 0) (-1) < 0 := max_lt h' (by norm_num)
        rw [min_eq_left (by linarith)] at h
        linarith
      · have : 0 < min (max (v / maxAbs x * fromDb l true + 0) (-1)) 1 :=
          lt_min (lt_max_of_lt_left h') one_pos
        linarith
    · simp only [stage]
      refine ⟨_, restorePeak_some _ _ ?_⟩
      intro hm
      have := (maxAbs_zero_iff _).mp hm (v * (100 / 100)) (List.mem_map.mpr ⟨v, hv, rfl⟩)
      norm_num at this
      rw [this, abs_zero] at hva
      exact h0 hva.symm
  obtain ⟨z, hz⟩ := key
  unfold apply
  simp only [hf, List.foldl_cons, List.foldl_nil, hz, addArr, Option.map_some]
  exact ⟨_, rfl⟩

/-- With several distortions the peak is at most the number of mixed entries times the peak of
the input (times the post gain): this is all that is kept in general. -/
theorem C54_peak_bound_partial (es : List Entry) (g : ℝ) (x y : List ℝ) (P : ℝ) (hP : IsPeak x P)
    (h : apply es (some g) x = some y) :
    y.length = x.length ∧
      ∀ v ∈ y, |v| ≤ (es.filter fun e => decide (e.mix ≠ 0)).length * P * 10 ^ (g / 20) := by
  rw [isPeak_iff x P hP]
  unfold apply at h
  simp only [Option.map_eq_some_iff] at h
  obtain ⟨w, hw, rfl⟩ := h
  obtain ⟨h1, h2⟩ := fold_bound x _ _ w (by simp) hw
  rw [maxAbs_replicate, zero_add] at h2
  refine ⟨by simp [h1], fun v hv => ?_⟩
  obtain ⟨u, hu, rfl⟩ := List.mem_map.mp hv
  rw [abs_mul, abs_of_pos (gainFactor_pos g)]
  exact mul_le_mul_of_nonneg_right ((le_maxAbs w u hu).trans h2) (gainFactor_pos g).le

/-- The effect does not depend on the level of the input: a scaled input gives the scaled
output. -/
theorem C54_scale_invariant (es : List Entry) (g : Option ℝ) (x : List ℝ) (c : ℝ) (hc : 0 < c) :
    apply es g (x.map (· * c)) = (apply es g x).map (·.map (· * c)) := by
  have h0 : (some (List.replicate (x.map (· * c)).length (0 : ℝ)))
      = (some (List.replicate x.length (0 : ℝ))).map (·.map (· * c)) := by
    simp
  unfold apply
  simp only [h0, fold_scale x _ c hc]
  cases g with
  | none => rfl
  | some g =>
    simp only [Option.map_map]
    congr 1
    funext l
    simp only [Function.comp, List.map_map]
    exact List.map_congr_left fun v _ => by simp only [Function.comp]; ring

/-- The amounts of the mix have no effect on the output: two lists of settings that differ only in
positive amounts give the same result.  (The peak is restored after multiplying with the amount.) -/
theorem C54_mix_ignored (es : List (Kind × ℝ × Option ℝ)) (m m' : ℕ → ℝ)
    (hm : ∀ i, 0 < m i) (hm' : ∀ i, 0 < m' i) (g : Option ℝ) (x : List ℝ) :
    apply (es.mapIdx fun i e => ⟨e.1, m i, e.2.1, e.2.2⟩) g x
      = apply (es.mapIdx fun i e => ⟨e.1, m' i, e.2.1, e.2.2⟩) g x := by
  have hc : ∀ (e : Kind × ℝ × Option ℝ) (a b : ℝ), 0 < a → 0 < b →
      contribution x ⟨e.1, a, e.2.1, e.2.2⟩ = contribution x ⟨e.1, b, e.2.1, e.2.2⟩ := by
    intro e a b ha hb
    unfold contribution
    cases stage e.1 (fromDb e.2.1 true) (offsetLin e.2.2) x with
    | none => rfl
    | some y => simp only [restorePeak_factor _ _ _ ha, restorePeak_factor _ _ _ hb]
  have hall : ∀ (m : ℕ → ℝ), (∀ i, 0 < m i) → ∀ l : List (Kind × ℝ × Option ℝ),
      (l.mapIdx fun i e => (⟨e.1, m i, e.2.1, e.2.2⟩ : Entry)).filter (fun e => decide (e.mix ≠ 0))
        = l.mapIdx fun i e => ⟨e.1, m i, e.2.1, e.2.2⟩ := by
    intro m hm l
    rw [List.filter_eq_self]
    intro e he
    obtain ⟨i, hi, rfl⟩ := List.mem_mapIdx.mp he
    simpa using (hm i).ne'
  have hfold : ∀ (l : List (Kind × ℝ × Option ℝ)) (m m' : ℕ → ℝ), (∀ i, 0 < m i) → (∀ i, 0 < m' i) →
      ∀ a : Option (List ℝ),
      (l.mapIdx fun i e => (⟨e.1, m i, e.2.1, e.2.2⟩ : Entry)).foldl
        (fun acc e => addArr acc (contribution x e)) a
      = (l.mapIdx fun i e => (⟨e.1, m' i, e.2.1, e.2.2⟩ : Entry)).foldl
        (fun acc e => addArr acc (contribution x e)) a := by
    intro l
    induction l with
    | nil => intros; rfl
    | cons e l ih =>
      intro m m' hm hm' a
      rw [List.mapIdx_cons, List.mapIdx_cons, List.foldl_cons, List.foldl_cons,
        hc e (m 0) (m' 0) (hm 0) (hm' 0)]
      exact ih (fun i => m (i + 1)) (fun i => m' (i + 1)) (fun i => hm _) (fun i => hm' _) _
  unfold apply
  simp only [hall m hm, hall m' hm', hfold es m m' hm hm']

/-- So the peak is not kept: hard clipping at 0 dB (which changes nothing) mixed half and half with
the clean signal gives twice the input, for every input that is not silent. -/
theorem C54_peak_doubled (x : List ℝ) (hx : ∃ v ∈ x, v ≠ 0) :
    ∃ es, setParameters [.hardClip] [0] [50] [none] = .ok es ∧
      apply es (some 0) x = some (x.map (2 * ·)) := by
  refine ⟨_, setParameters_single _ _ _ _ (by norm_num), ?_⟩
  obtain ⟨v0, hv0, hv0n⟩ := hx
  have h0 : maxAbs x ≠ 0 := fun h => hv0n ((maxAbs_zero_iff x).mp h v0 hv0)
  have hp := maxAbs_pos x h0
  have hclean : ∀ m : ℝ, 0 < m → ∀ l o, contribution x ⟨.noDistortion, m, l, o⟩ = some x := by
    intro m hm l o
    simp only [contribution, stage]
    rw [restorePeak_factor _ _ _ hm, restorePeak_some _ _ h0]
    congr 1
    conv_rhs => rw [← List.map_id x]
    exact List.map_congr_left fun v _ => by rw [div_self h0, mul_one]; rfl
  have hhard : contribution x ⟨.hardClip, 50 / 100, 0, none⟩ = some x := by
    have hst : stage .hardClip (fromDb 0 true) (offsetLin none) x
        = some (x.map (· * (1 / maxAbs x))) := by
      simp only [stage, normalized, if_neg h0, Option.map_some, List.map_map]
      congr 1
      refine List.map_congr_left fun v hv => ?_
      have hb : |v / maxAbs x| ≤ 1 := by
        rw [abs_div, abs_of_pos hp, div_le_one hp]
        exact le_maxAbs x v hv
      obtain ⟨hb1, hb2⟩ := abs_le.mp hb
      simp only [Function.comp, hardCurve, clip, fromDb, offsetLin, zero_div, Real.rpow_zero,
        mul_one, add_zero]
      rw [max_eq_left hb1, min_eq_left hb2]
      ring
    simp only [contribution, hst]
    rw [restorePeak_factor _ _ _ (by norm_num), restorePeak_factor _ _ _ (by positivity),
      restorePeak_some _ _ h0]
    congr 1
    conv_rhs => rw [← List.map_id x]
    exact List.map_congr_left fun v _ => by rw [div_self h0, mul_one]; rfl
  have hf : ([⟨.hardClip, 50 / 100, 0, none⟩, ⟨.noDistortion, 1 - 50 / 100, 0, none⟩] :
      List Entry).filter (fun e => decide (e.mix ≠ 0))
      = [⟨.hardClip, 50 / 100, 0, none⟩, ⟨.noDistortion, 1 - 50 / 100, 0, none⟩] := by
    norm_num [List.filter_cons]
  unfold apply
  simp only [hf, List.foldl_cons, List.foldl_nil, hhard, hclean (1 - 50 / 100) (by norm_num),
    addArr, zipWith_zero, Option.map_some, zero_div, Real.rpow_zero, mul_one]
  congr 1
  rw [List.map_id', List.zipWith_self]
  exact List.map_congr_left fun v _ => by ring

/-- Arctan and hard clip never decrease and stay within the unit range; louder samples never come
out smaller. -/
theorem C54_curve_monotone (l : ℝ) (off : ℝ) (hl : 0 ≤ l) :
    (∀ u v, u ≤ v → arctanCurve l off u ≤ arctanCurve l off v) ∧
    (∀ v, |arctanCurve l off v| < 1) ∧
    (∀ u v, u ≤ v → hardCurve l off u ≤ hardCurve l off v) ∧
    (∀ v, |hardCurve l off v| ≤ 1) ∧
    (∀ v, |v * l + off| ≤ 1 → hardCurve l off v = v * l + off) := by
  have hpi := Real.pi_pos
  refine ⟨fun u v h => ?_, fun v => ?_, fun u v h => ?_, fun v => ?_, fun v h => ?_⟩
  · refine mul_le_mul_of_nonneg_right (Real.arctan_strictMono.monotone ?_) (by positivity)
    have := mul_le_mul_of_nonneg_right h hl
    linarith
  · have h1 := Real.arctan_lt_pi_div_two (v * l + off)
    have h2 := Real.neg_pi_div_two_lt_arctan (v * l + off)
    have h3 : |Real.arctan (v * l + off)| < Real.pi / 2 := abs_lt.mpr ⟨by linarith, h1⟩
    unfold arctanCurve
    rw [abs_mul, abs_of_pos (by positivity : 0 < 2 / Real.pi)]
    calc |Real.arctan (v * l + off)| * (2 / Real.pi) < Real.pi / 2 * (2 / Real.pi) := by
          exact mul_lt_mul_of_pos_right h3 (by positivity)
      _ = 1 := by field_simp
  · have := mul_le_mul_of_nonneg_right h hl
    unfold hardCurve clip
    exact min_le_min (max_le_max (by linarith) le_rfl) le_rfl
  · unfold hardCurve clip
    exact abs_le.mpr ⟨le_min (le_max_right _ _) (by norm_num), min_le_right _ _⟩
  · obtain ⟨h1, h2⟩ := abs_le.mp h
    unfold hardCurve clip
    rw [max_eq_left h1, min_eq_left h2]

/-- The soft clip stays within 2/3; it does not decrease as long as the driven sample is within
the unit range. -/
theorem C54_soft_clip_partial (l off : ℝ) (hl : 0 ≤ l) :
    (∀ v, |softCurve l off v| ≤ 2 / 3) ∧
    (∀ u v, u ≤ v → -1 ≤ (u * (2 / 3) + off) * l → (v * (2 / 3) + off) * l ≤ 1 →
      softCurve l off u ≤ softCurve l off v) := by
  refine ⟨fun v => ?_, fun u v h h1 h2 => ?_⟩
  · unfold softCurve clip
    exact abs_le.mpr ⟨le_min (le_max_right _ _) (by norm_num), min_le_right _ _⟩
  · have hmon : (u * (2 / 3) + off) * l ≤ (v * (2 / 3) + off) * l :=
      mul_le_mul_of_nonneg_right (by linarith) hl
    unfold softCurve clip
    refine min_le_min (max_le_max ?_ le_rfl) le_rfl
    generalize (u * (2 / 3) + off) * l = a at *
    generalize (v * (2 / 3) + off) * l = b at *
    have : 0 ≤ (b - a) * (3 - (b ^ 2 + a * b + a ^ 2)) := by
      refine mul_nonneg (by linarith) ?_
      nlinarith [mul_nonneg (by linarith : (0:ℝ) ≤ 1 - a) (by linarith : (0:ℝ) ≤ 1 + a),
        mul_nonneg (by linarith : (0:ℝ) ≤ 1 - b) (by linarith : (0:ℝ) ≤ 1 + b), sq_nonneg (a - b)]
    nlinarith

/-- Beyond that the soft clip folds over: at the default level of 20 dB the loudest positive
sample comes out at the lower clipping limit. -/
theorem C54_soft_clip_folds :
    softCurve (fromDb 20 true) (offsetLin none) 1 = -(2 / 3) ∧
      0 < softCurve (fromDb 20 true) (offsetLin none) (1 / 10) := by
  have h : fromDb 20 true = 10 := by norm_num [fromDb, dbFactor]
  unfold softCurve clip offsetLin
  rw [h]
  refine ⟨?_, ?_⟩
  · simp only []
    rw [max_eq_right (by norm_num), min_eq_left (by norm_num)]
  · simp only []
    rw [max_eq_left (by norm_num)]
    exact lt_min (by norm_num) (by norm_num)

/-- A silent channel comes back as `nan` for every setting with a non-zero mix. -/
theorem C54_silence (es : List Entry) (he : ∃ e ∈ es, e.mix ≠ 0) (g : Option ℝ) (n : ℕ) :
    apply es g (List.replicate n 0) = none := by
  have h0 : maxAbs (List.replicate n 0) = 0 := maxAbs_replicate n
  have hc : ∀ e, contribution (List.replicate n 0) e = none := by
    intro e
    unfold contribution
    cases hk : e.kind <;> simp only [stage, normalized, h0, if_true, Option.map_none]
    unfold restorePeak
    rw [if_pos (by rw [maxAbs_scale, h0, zero_mul])]
  obtain ⟨e, he1, he2⟩ := he
  have hne : es.filter (fun e => decide (e.mix ≠ 0)) ≠ [] :=
    List.ne_nil_of_mem (List.mem_filter.mpr ⟨he1, by simpa using he2⟩)
  unfold apply
  cases hl : es.filter (fun e => decide (e.mix ≠ 0)) with
  | nil => exact absurd hl hne
  | cons e' es' =>
    dsimp only
    rw [List.foldl_cons, hc, show addArr _ none = none from rfl, foldl_none]
    cases g <;> rfl

/-! ## The hypotheses are met -/

example : IsPeak [1 / 2, -3, 1] 3 := by
  refine ⟨?_, -3, by simp, by norm_num⟩
  intro v hv
  simp only [List.mem_cons, List.not_mem_nil, or_false] at hv
  rcases hv with rfl | rfl | rfl <;> norm_num [abs_of_pos, abs_of_neg]

example : ∃ es y, setParameters [.arctan] [20] [100] [none] = .ok es ∧
    apply es (some 6) [1 / 2, -3, 1] = some y := by
  have h := setParameters_single .arctan 20 100 none le_rfl
  obtain ⟨y, hy⟩ := C54_defined .arctan (Or.inl rfl) 20 6 _ [1 / 2, -3, 1]
    ⟨1, by simp, one_ne_zero⟩ h
  exact ⟨_, y, h, hy⟩

example : ∃ v ∈ ([1 / 2, -3] : List ℝ), v ≠ 0 := ⟨-3, by simp, by norm_num⟩

end Verif.Distortion
