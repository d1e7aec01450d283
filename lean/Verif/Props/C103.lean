import Verif.Lemmas.NormalizedSpectrum
import Verif.Props.C102
import Mathlib.Tactic.FieldSimp
import Mathlib.Algebra.BigOperators.Field

/-!
# C103: levels of normalised spectra
-/

namespace Verif.NormalizedSpectrum

open Verif.Level

/-- The part of the frequency vector for a range: from the point nearest to the lower bound to the
point nearest to the upper bound (included). -/
def Part (f : List ℝ) (range : Option (List ℝ)) (i j : ℕ) : Prop :=
  match range with
  | none => i = 0 ∧ j = f.length
  | some r => ∃ a b l, r = [a, b] ∧ j = l + 1 ∧
      Helpers.FirstMin (f.map fun v => |min a b - v|) i ∧
      Helpers.FirstMin (f.map fun v => |max a b - v|) l

/-- The level of a value: 20 (10) times the decimal logarithm for amplitudes (powers). -/
noncomputable def level (amp : Bool) (x : ℝ) : ℝ := (if amp then 20 else 10) * Real.logb 10 x

/-- Pressures are related to 20 µPa, their squares to the square of it. -/
noncomputable def reference (amp calibrated : Bool) : ℝ :=
  if calibrated then (if amp then 20e-6 else (20e-6) ^ 2) else 1

theorem section_part {f : List ℝ} {range : Option (List ℝ)} {s : ℕ × ℕ}
    (h : section_ f range = .ok s) : Part f range s.1 s.2 := by
  unfold section_ at h
  unfold Part
  split at h
  · injection h with h
    subst h
    exact ⟨rfl, rfl⟩
  · rename_i a b
    unfold Helpers.findNearest at h
    by_cases hf : f = []
    · subst hf
      simp [Helpers.argmin, bind, Except.bind] at h
    · obtain ⟨i, hi, hi'⟩ := Helpers.argmin_spec (f.map fun v => |min a b - v|) (by simpa using hf)
      obtain ⟨l, hl, hl'⟩ := Helpers.argmin_spec (f.map fun v => |max a b - v|) (by simpa using hf)
      simp only [List.mapM_cons, List.mapM_nil, hi, hl, bind, Except.bind, pure, Except.pure] at h
      injection h with h
      subst h
      exact ⟨a, b, l, rfl, rfl, hi', hl'⟩
  · cases h

theorem section_some {f : List ℝ} {range : Option (List ℝ)} (hf : f ≠ [])
    (hr : ∀ r, range = some r → r.length = 2) : ∃ s, section_ f range = .ok s := by
  unfold section_
  split
  · exact ⟨_, rfl⟩
  · rename_i a b
    obtain ⟨i, hi, -⟩ := Helpers.argmin_spec (f.map fun v => |min a b - v|) (by simpa using hf)
    obtain ⟨l, hl, -⟩ := Helpers.argmin_spec (f.map fun v => |max a b - v|) (by simpa using hf)
    refine ⟨(i, l + 1), ?_⟩
    unfold Helpers.findNearest
    simp only [List.mapM_cons, List.mapM_nil, hi, hl, bind, Except.bind, pure, Except.pure]
    rfl
  · rename_i r hne
    have := hr r rfl
    match r, this with
    | [a, b], _ => exact absurd rfl (hne a b)

theorem part_nonempty {f : List ℝ} (hf : Increasing f) (h0 : f ≠ []) {range : Option (List ℝ)}
    {i j : ℕ} (h : Part f range i j) : ((f.take j).drop i).length ≠ 0 := by
  have : 0 < f.length := List.length_pos_of_ne_nil h0
  rw [List.length_drop, List.length_take]
  unfold Part at h
  cases range with
  | none =>
    obtain ⟨rfl, rfl⟩ := h
    omega
  | some r =>
    obtain ⟨a, b, l, -, rfl, hi, hl⟩ := h
    have h1 := nearest_mono hf (min_le_max (a := a) (b := b)) hi hl
    have h2 : l < f.length := by simpa using hl.1
    omega

/-- Without normalisation and smoothing: the level of every entry within 500 dB of the largest one is
its level relative to the reference, and no level lies more than 500 dB below another one. -/
theorem C103_levels {f : List ℝ} {X : Mat ℂ} {amp : Bool} {range : Option (List ℝ)} {cal : Bool}
    {g : List ℝ} {D : Mat ℝ} (h : normalizedSpectrum f X amp range .no none cal = .ok (g, some D)) :
    ∃ i j, Part f range i j ∧ g = (f.take j).drop i ∧ D.rows = g.length ∧ D.cols = X.cols ∧
      (∀ k < g.length, ∀ c < X.cols,
        (∀ k' < g.length, ∀ c' < X.cols, ‖X.val (i + k') c'‖ *
          10 ^ (-(500 : ℝ) / (if amp then 20 else 10)) ≤ ‖X.val (i + k) c‖) →
        D.val k c = level amp (‖X.val (i + k) c‖ / reference amp cal)) ∧
      ∀ k < g.length, ∀ c < X.cols, ∀ k' < g.length, ∀ c' < X.cols,
        D.val k' c' - 500 ≤ D.val k c := by
  obtain ⟨s, o, hs, hg, h1, h2, h3, h4, rfl⟩ := ok_elim h
  have ho : o = fun _ => 0 := by
    unfold offsets at h4
    injection h4 with h4
    injection h4 with h4
    exact h4.symm
  have href : scale amp cal .no = reference amp cal := by
    unfold scale reference
    cases amp <;> cases cal <;> norm_num
  have hpos := scale_pos amp cal .no
  have hfac : dbFactor amp = (if amp then 20 else 10) := rfl
  have hM := maxAbs_pos h3 hpos
  have hne : entries g.length X.cols (fun k c =>
      magnitudes X s.1 g.length amp none k c / scale amp cal .no) ≠ [] :=
    entries_ne (Nat.pos_of_ne_zero h1) (Nat.pos_of_ne_zero h2)
  refine ⟨s.1, s.2, section_part hs, hg, rfl, rfl, ?_, ?_⟩
  · intro k hk c hc hle
    subst ho
    unfold decibel
    simp only [sub_zero, clipMin]
    rw [level, ← hfac, ← href]
    congr 2
    rw [show magnitudes X s.1 g.length amp none k c = ‖X.val (s.1 + k) c‖ from rfl,
      abs_of_nonneg (div_nonneg (norm_nonneg _) hpos.le)]
    apply max_eq_left
    obtain ⟨x, hx, e⟩ := maxAbs_mem hne
    obtain ⟨k', hk', c', hc', rfl⟩ := mem_entries.mp hx
    rw [e, show magnitudes X s.1 g.length amp none k' c' = ‖X.val (s.1 + k') c'‖ from rfl,
      abs_of_nonneg (div_nonneg (norm_nonneg _) hpos.le), div_mul_eq_mul_div,
      abs_of_pos (by norm_num : (0 : ℝ) < 500), hfac]
    exact div_le_div_of_nonneg_right (hle k' hk' c' hc') hpos.le
  · intro k hk c hc k' hk' c' hc'
    subst ho
    unfold decibel
    simp only [sub_zero, clipMin]
    generalize hm : maxAbs (entries g.length X.cols fun k c =>
      magnitudes X s.1 g.length amp none k c / scale amp cal .no) = m at hM
    have hf0 := dbFactor_pos amp
    have hp : (0 : ℝ) < 10 ^ (-|(500 : ℝ)| / dbFactor amp) := Real.rpow_pos_of_pos (by norm_num) _
    have hp1 : (10 : ℝ) ^ (-|(500 : ℝ)| / dbFactor amp) ≤ 1 := by
      apply Real.rpow_le_one_of_one_le_of_nonpos (by norm_num)
      apply div_nonpos_of_nonpos_of_nonneg _ hf0.le
      simp
    have up : dbFactor amp * Real.logb 10 (max
        |magnitudes X s.1 g.length amp none k' c' / scale amp cal .no|
        (m * 10 ^ (-|(500 : ℝ)| / dbFactor amp))) ≤ dbFactor amp * Real.logb 10 m := by
      apply mul_le_mul_of_nonneg_left _ hf0.le
      apply Real.logb_le_logb_of_le (by norm_num)
      · exact lt_of_lt_of_le (mul_pos hM hp) (le_max_right _ _)
      · apply max_le
        · rw [← hm]
          exact le_maxAbs (mem_entries.mpr ⟨k', hk', c', hc', rfl⟩)
        · nlinarith
    have low : dbFactor amp * Real.logb 10 m - 500 ≤ dbFactor amp * Real.logb 10 (max
        |magnitudes X s.1 g.length amp none k c / scale amp cal .no|
        (m * 10 ^ (-|(500 : ℝ)| / dbFactor amp))) := by
      have : dbFactor amp * Real.logb 10 m - 500 =
          dbFactor amp * Real.logb 10 (m * 10 ^ (-|(500 : ℝ)| / dbFactor amp)) := by
        rw [Real.logb_mul hM.ne' hp.ne', Real.logb_rpow (by norm_num) (by norm_num),
          abs_of_pos (by norm_num : (0 : ℝ) < 500)]
        field_simp
        ring
      rw [this]
      apply mul_le_mul_of_nonneg_left _ hf0.le
      exact Real.logb_le_logb_of_le (by norm_num) (mul_pos hM hp) (le_max_right _ _)
    linarith

/-- Every normalisation moves the levels of a channel by one value; the variants for the first
channel move all channels by the same value. -/
theorem C103_offset {f : List ℝ} {X : Mat ℂ} {amp : Bool} {range : Option (List ℝ)} {cal : Bool}
    {S : Option (List ℝ → List ℝ)} {nrm : Norm} {g g' : List ℝ} {D E : Mat ℝ} (hn : nrm ≠ .no)
    (h0 : normalizedSpectrum f X amp range .no S false = .ok (g, some D))
    (h : normalizedSpectrum f X amp range nrm S cal = .ok (g', some E)) :
    g' = g ∧ E.rows = D.rows ∧ E.cols = D.cols ∧ ∃ o : ℕ → ℝ,
      (∀ k < D.rows, ∀ c < D.cols, E.val k c = D.val k c - o c) ∧
      (nrm = .oneKhzFirst ∨ nrm = .maxFirst ∨ nrm = .energyFirst → ∀ c, o c = o 0) := by
  obtain ⟨s, o, hs, hg, -, -, -, h4, rfl⟩ := ok_elim h0
  obtain ⟨s', o', hs', hg', -, -, -, h4', rfl⟩ := ok_elim h
  rw [hs] at hs'
  injection hs' with hs'
  subst hs'
  have hgg : g' = g := by rw [hg', hg]
  subst hgg
  have ho : o = fun _ => 0 := by
    unfold offsets at h4
    injection h4 with h4
    injection h4 with h4
    exact h4.symm
  refine ⟨rfl, rfl, rfl, o', ?_, ?_⟩
  · intro k _ c _
    subst ho
    simp only [sub_zero]
    rw [scale_one amp cal hn, scale_uncal]
  · intro hc c
    unfold offsets at h4'
    rcases hc with rfl | rfl | rfl
    · dsimp only at h4'
      simp only [bind, Except.bind] at h4'
      split at h4'
      · cases h4'
      · rename_i v _
        injection h4' with h4'
        cases v with
        | none => cases h4'
        | some v =>
          injection h4' with h4'
          rw [← h4']
    · injection h4' with h4'
      injection h4' with h4'
      rw [← h4']
    · dsimp only at h4'
      cases amp with
      | false => cases h4'
      | true =>
        injection h4' with h4'
        injection h4' with h4'
        rw [← h4']

/-- After the normalisation to the maximum, the largest level of every channel is 0 dB. -/
theorem C103_max {f : List ℝ} {X : Mat ℂ} {amp : Bool} {range : Option (List ℝ)} {cal : Bool}
    {S : Option (List ℝ → List ℝ)} {g : List ℝ} {E : Mat ℝ}
    (h : normalizedSpectrum f X amp range .max S cal = .ok (g, some E)) :
    ∀ c < E.cols, (∀ k < E.rows, E.val k c ≤ 0) ∧ ∃ k < E.rows, E.val k c = 0 := by
  obtain ⟨s, o, -, -, h1, -, -, h4, rfl⟩ := ok_elim h
  unfold offsets at h4
  injection h4 with h4
  injection h4 with h4
  subst h4
  intro c _
  dsimp only
  obtain ⟨a, k, hk, b⟩ := columnMax_spec g.length (fun k => decibel g.length X.cols amp (fun k c =>
          magnitudes X s.1 g.length amp S k c / scale amp cal .max) k c) (Nat.pos_of_ne_zero h1)
  refine ⟨fun k hk => ?_, k, hk, ?_⟩
  · have := a k hk
    linarith
  · linarith

/-- The same for the first channel with the other normalisation. -/
theorem C103_max_first {f : List ℝ} {X : Mat ℂ} {amp : Bool} {range : Option (List ℝ)} {cal : Bool}
    {S : Option (List ℝ → List ℝ)} {g : List ℝ} {E : Mat ℝ}
    (h : normalizedSpectrum f X amp range .maxFirst S cal = .ok (g, some E)) :
    (∀ k < E.rows, E.val k 0 ≤ 0) ∧ ∃ k < E.rows, E.val k 0 = 0 := by
  obtain ⟨s, o, -, -, h1, -, -, h4, rfl⟩ := ok_elim h
  unfold offsets at h4
  injection h4 with h4
  injection h4 with h4
  subst h4
  dsimp only
  obtain ⟨a, k, hk, b⟩ := columnMax_spec g.length (fun k => decibel g.length X.cols amp (fun k c =>
          magnitudes X s.1 g.length amp S k c / scale amp cal .maxFirst) k 0)
          (Nat.pos_of_ne_zero h1)
  refine ⟨fun k hk => ?_, k, hk, ?_⟩
  · have := a k hk
    linarith
  · linarith

theorem column_map {n : ℕ} (d : ℕ → ℝ) (v : ℝ) :
    (List.range n).map (fun k => d k - v) = ((List.range n).map d).map (· - v) := by
  rw [List.map_map]; rfl

/-- After the normalisation at 1 kHz, the polygon through the levels of every channel (of the first
channel) passes through 0 dB at 1 kHz. -/
theorem C103_one_khz {f : List ℝ} {X : Mat ℂ} {amp : Bool} {range : Option (List ℝ)} {cal : Bool}
    {S : Option (List ℝ → List ℝ)} {g : List ℝ} {E : Mat ℝ} {nrm : Norm}
    (hg : Increasing g) (hl : 1000 < g.getD (g.length - 1) 0)
    (hn : nrm = .oneKhz ∨ nrm = .oneKhzFirst)
    (h : normalizedSpectrum f X amp range nrm S cal = .ok (g, some E)) :
    ∀ c < E.cols, (nrm = .oneKhzFirst → c = 0) →
      OnPolygon g ((List.range E.rows).map fun k => E.val k c) 1000 0 := by
  obtain ⟨s, o, -, -, h1, hx, -, h4, rfl⟩ := ok_elim h
  dsimp only
  generalize hd : decibel g.length X.cols amp (fun k c =>
          magnitudes X s.1 g.length amp S k c / scale amp cal nrm) = d at h4 ⊢
  have hg0 : g ≠ [] := by
    rintro rfl
    exact h1 rfl
  have hlow : g.getD 0 0 < 1000 ∨ 1000 ≤ g.getD 0 0 := lt_or_ge _ _
  have all : 1000 ≤ g.getD 0 0 → ∀ v ∈ g, 1000 ≤ v := by
    intro h v hv
    obtain ⟨i, hi, rfl⟩ := List.getElem_of_mem hv
    rw [← List.getD_eq_getElem _ 0 hi]
    rcases Nat.eq_zero_or_pos i with rfl | h0
    · exact h
    · exact le_trans h (hg 0 i h0 hi).le
  have gain : ∀ c, ∀ r, ExactValue.exactGain g ((List.range g.length).map fun k => d k c) = .ok r →
      ∃ v, r = some v ∧ OnPolygon g ((List.range g.length).map fun k => d k c - v) 1000 0 := by
    intro c r hr
    rcases hlow with hlow | hlow
    · obtain ⟨v, e, p⟩ := ExactValue.C102_gain_partial g
        ((List.range g.length).map fun k => d k c) hg (by simp) hg0 hlow hl
      rw [e] at hr
      injection hr with hr
      refine ⟨v, hr.symm, ?_⟩
      rw [column_map]
      exact polygon_shift (by simp) p
    · rw [ExactValue.C102_gain_refused g _ hg0 (Or.inl (all hlow))] at hr
      cases hr
  intro c hc hfirst
  unfold offsets at h4
  rcases hn with rfl | rfl
  · dsimp only at h4
    cases hm : (List.range X.cols).mapM (fun c =>
        ExactValue.exactGain g ((List.range g.length).map fun k => d k c)) with
    | error e => simp only [hm, bind, Except.bind] at h4; cases h4
    | ok r =>
      simp only [hm, bind, Except.bind] at h4
      by_cases hnone : none ∈ r
      · rw [if_pos hnone] at h4; cases h4
      · rw [if_neg hnone] at h4
        injection h4 with h4
        injection h4 with h4
        subst h4
        obtain ⟨a, ha, b⟩ := mapM_getD _ _ _ hm c (by simpa using hc)
        obtain ⟨v, rfl, p⟩ := gain c a (by simpa using ha)
        dsimp only
        rw [b]
        exact p
  · have : c = 0 := hfirst rfl
    subst this
    dsimp only at h4
    cases hm : ExactValue.exactGain g ((List.range g.length).map fun k => d k 0) with
    | error e => simp only [hm, bind, Except.bind] at h4; cases h4
    | ok r =>
      obtain ⟨v, rfl, p⟩ := gain 0 r hm
      simp only [hm, bind, Except.bind] at h4
      injection h4 with h4
      injection h4 with h4
      subst h4
      exact p

theorem sum_normalised {n : ℕ} (w : ℕ → ℝ) (hn : 0 < n)
    (h : (∑ k ∈ Finset.range n, w k) / n ≠ 0) :
    (∑ k ∈ Finset.range n, w k / ((∑ k ∈ Finset.range n, w k) / n)) / n = 1 := by
  rw [← Finset.sum_div]
  have hn' : (n : ℝ) ≠ 0 := by exact_mod_cast hn.ne'
  have hs : (∑ k ∈ Finset.range n, w k) ≠ 0 := by
    intro e
    rw [e, zero_div] at h
    exact h rfl
  field_simp

/-- After the normalisation to the energy, the mean power of every channel (of the first channel) is
1, if no entry lies more than 500 dB below the largest one and the mean power is not below the
smallest normal number. -/
theorem C103_energy {f : List ℝ} {X : Mat ℂ} {amp : Bool} {range : Option (List ℝ)} {cal : Bool}
    {g : List ℝ} {E : Mat ℝ} {nrm : Norm} (hn : nrm = .energy ∨ nrm = .energyFirst)
    (h : normalizedSpectrum f X amp range nrm none cal = .ok (g, some E)) :
    ∃ i j, Part f range i j ∧ g = (f.take j).drop i ∧
      ((∀ k < g.length, ∀ c < X.cols, ∀ k' < g.length, ∀ c' < X.cols, ‖X.val (i + k') c'‖ *
          10 ^ (-(500 : ℝ) / (if amp then 20 else 10)) ≤ ‖X.val (i + k) c‖) →
        ∀ c < X.cols, (nrm = .energyFirst → c = 0) →
          2 ^ (-1022 : ℤ) ≤ (∑ k ∈ Finset.range g.length,
            if amp then ‖X.val (i + k) c‖ ^ 2 else ‖X.val (i + k) c‖) / g.length →
          (∑ k ∈ Finset.range g.length, (10 : ℝ) ^ (E.val k c / 10)) / g.length = 1) := by
  obtain ⟨s, o, hs, hg, h1, h2, h3, h4, rfl⟩ := ok_elim h
  have hne : entries g.length X.cols (fun k c =>
      magnitudes X s.1 g.length amp none k c / scale amp cal nrm) ≠ [] :=
    entries_ne (Nat.pos_of_ne_zero h1) (Nat.pos_of_ne_zero h2)
  have hs1 : scale amp cal nrm = 1 := scale_one _ _ (by rcases hn with rfl | rfl <;> simp)
  have hM := maxAbs_pos h3 (scale_pos amp cal nrm)
  refine ⟨s.1, s.2, section_part hs, hg, ?_⟩
  intro hclip c hc hfirst hmin
  have hoff : o c = 10 * Real.logb 10 ((∑ k ∈ Finset.range g.length,
            if amp then ‖X.val (s.1 + k) c‖ ^ 2 else ‖X.val (s.1 + k) c‖) / g.length) := by
    have key : powerDb (meanPower g.length amp fun k => magnitudes X s.1 g.length amp none k c) =
        10 * Real.logb 10 ((∑ k ∈ Finset.range g.length,
            if amp then ‖X.val (s.1 + k) c‖ ^ 2 else ‖X.val (s.1 + k) c‖) / g.length) := by
      unfold powerDb clipMin meanPower tiny
      rw [show dbFactor false = 10 from rfl]
      simp only [magnitudes]
      congr 2
      have h0 : (0 : ℝ) < 2 ^ (-1022 : ℤ) := by positivity
      rw [abs_of_pos (lt_of_lt_of_le h0 hmin)]
      exact max_eq_left hmin
    unfold offsets at h4
    rcases hn with rfl | rfl
    · injection h4 with h4
      injection h4 with h4
      subst h4
      exact key
    · have : c = 0 := hfirst rfl
      subst this
      dsimp only at h4
      cases amp with
      | false => cases h4
      | true =>
        injection h4 with h4
        injection h4 with h4
        subst h4
        exact key
  have hval : ∀ k < g.length, ∀ (hpos : 0 < ‖X.val (s.1 + k) c‖),
      (10 : ℝ) ^ (decibel g.length X.cols amp (fun k c =>
        magnitudes X s.1 g.length amp none k c / scale amp cal nrm) k c / 10) =
      if amp then ‖X.val (s.1 + k) c‖ ^ 2 else ‖X.val (s.1 + k) c‖ := by
    intro k hk hpos
    unfold decibel
    rw [show clipMin (maxAbs (entries g.length X.cols fun k c =>
        magnitudes X s.1 g.length amp none k c / scale amp cal nrm) *
          10 ^ (-|(500 : ℝ)| / dbFactor amp))
        |magnitudes X s.1 g.length amp none k c / scale amp cal nrm| = ‖X.val (s.1 + k) c‖ from ?_]
    · cases amp with
      | true =>
        rw [show dbFactor true = 20 from rfl, if_pos rfl,
          show 20 * Real.logb 10 ‖X.val (s.1 + k) c‖ / 10 =
            Real.logb 10 ‖X.val (s.1 + k) c‖ * (2 : ℕ) by push_cast; ring,
          Real.rpow_mul (by norm_num), Real.rpow_logb (by norm_num) (by norm_num) hpos,
          Real.rpow_natCast]
      | false =>
        rw [show dbFactor false = 10 from rfl, if_neg (by simp),
          show 10 * Real.logb 10 ‖X.val (s.1 + k) c‖ / 10 =
            Real.logb 10 ‖X.val (s.1 + k) c‖ by ring,
          Real.rpow_logb (by norm_num) (by norm_num) hpos]
    · unfold clipMin
      rw [hs1, div_one, show magnitudes X s.1 g.length amp none k c = ‖X.val (s.1 + k) c‖ from rfl,
        abs_of_nonneg (norm_nonneg _)]
      apply max_eq_left
      simp only [hs1, div_one] at hne ⊢
      obtain ⟨x, hx, e⟩ := maxAbs_mem hne
      obtain ⟨k', hk', c', hc', rfl⟩ := mem_entries.mp hx
      rw [e, show magnitudes X s.1 g.length amp none k' c' = ‖X.val (s.1 + k') c'‖ from rfl,
        abs_of_nonneg (norm_nonneg _), abs_of_pos (by norm_num : (0 : ℝ) < 500),
        show dbFactor amp = (if amp then 20 else 10) from rfl]
      exact hclip k hk c hc k' hk' c' hc'
  have hposall : ∀ k < g.length, 0 < ‖X.val (s.1 + k) c‖ := by
    intro k hk
    obtain ⟨x, hx, e⟩ := maxAbs_mem hne
    obtain ⟨k', hk', c', hc', rfl⟩ := mem_entries.mp hx
    rw [e, hs1, div_one, show magnitudes X s.1 g.length amp none k' c' = ‖X.val (s.1 + k') c'‖ from rfl,
      abs_of_nonneg (norm_nonneg _)] at hM
    exact lt_of_lt_of_le (mul_pos hM (Real.rpow_pos_of_pos (by norm_num) _))
      (hclip k hk c hc k' hk' c' hc')
  have hmean : 0 < (∑ k ∈ Finset.range g.length,
      if amp then ‖X.val (s.1 + k) c‖ ^ 2 else ‖X.val (s.1 + k) c‖) / g.length :=
    lt_of_lt_of_le (by positivity) hmin
  dsimp only
  rw [Finset.sum_congr rfl (g := fun k => (if amp then ‖X.val (s.1 + k) c‖ ^ 2
      else ‖X.val (s.1 + k) c‖) / ((∑ k ∈ Finset.range g.length,
      if amp then ‖X.val (s.1 + k) c‖ ^ 2 else ‖X.val (s.1 + k) c‖) / g.length))]
  · exact sum_normalised _ (Nat.pos_of_ne_zero h1) hmean.ne'
  · intro k hk
    rw [Finset.mem_range] at hk
    rw [sub_div, Real.rpow_sub (by norm_num), hval k hk (hposall k hk), hoff,
      mul_div_cancel_left₀ _ (by norm_num : (10 : ℝ) ≠ 0),
      Real.rpow_logb (by norm_num) (by norm_num) hmean]

/-- Spectra with an entry other than 0 in the range are answered with numbers: without
normalisation, and with the normalisations to the maximum and to the energy. -/
theorem C103_answered_partial {f : List ℝ} {X : Mat ℂ} {amp : Bool} {range : Option (List ℝ)}
    {cal : Bool} {nrm : Norm} (hf : Increasing f) (h0 : f ≠ [])
    (hr : ∀ r, range = some r → r.length = 2)
    (hx : ∀ i j, Part f range i j → ∃ k c, i + k < min j f.length ∧ c < X.cols ∧
      X.val (i + k) c ≠ 0)
    (h1 : nrm ≠ .oneKhz) (h2 : nrm ≠ .oneKhzFirst) (h3 : nrm = .energyFirst → amp = true) :
    ∃ g E, normalizedSpectrum f X amp range nrm none cal = .ok (g, some E) := by
  obtain ⟨s, hs⟩ := section_some (f := f) h0 hr
  obtain ⟨k, c, hk, hc, hne⟩ := hx _ _ (section_part hs)
  have ho : ∃ o, offsets ((f.take s.2).drop s.1) ((f.take s.2).drop s.1).length X.cols amp
        (magnitudes X s.1 ((f.take s.2).drop s.1).length amp none)
        (decibel ((f.take s.2).drop s.1).length X.cols amp fun k c =>
          magnitudes X s.1 ((f.take s.2).drop s.1).length amp none k c / scale amp cal nrm) nrm =
        .ok (some o) := by
    unfold offsets
    cases nrm with
    | oneKhz => exact absurd rfl h1
    | oneKhzFirst => exact absurd rfl h2
    | energyFirst => rw [h3 rfl]; exact ⟨_, rfl⟩
    | _ => exact ⟨_, rfl⟩
  obtain ⟨o, ho⟩ := ho
  refine ⟨_, ok_intro hs rfl (part_nonempty hf h0 (section_part hs)) (by omega) ?_ ho⟩
  intro e
  have := le_maxAbs (mem_entries.mpr ⟨k, by simp; omega, c, hc, rfl⟩ :
    magnitudes X s.1 ((f.take s.2).drop s.1).length amp none k c ∈
      entries ((f.take s.2).drop s.1).length X.cols
        (magnitudes X s.1 ((f.take s.2).drop s.1).length amp none))
  rw [e, show magnitudes X s.1 ((f.take s.2).drop s.1).length amp none k c =
    ‖X.val (s.1 + k) c‖ from rfl, abs_nonpos_iff, norm_eq_zero] at this
  exact hne this

/-- Ranges which are not a pair are refused. -/
theorem C103_range_refused (f : List ℝ) (X : Mat ℂ) (amp : Bool) (r : List ℝ) (nrm : Norm)
    (S : Option (List ℝ → List ℝ)) (cal : Bool) (h : r.length ≠ 2) :
    normalizedSpectrum f X amp (some r) nrm S cal = .error .assertionError := by
  have : section_ f (some r) = .error .assertionError := by
    unfold section_
    split
    · rename_i h'; cases h'
    · rename_i h'
      injection h' with h'
      subst h'
      exact absurd rfl h
    · rfl
  unfold normalizedSpectrum
  simp only [this, bind, Except.bind]

/-- The normalisation to the energy of the first channel fails for every spectrum with power
scaling. -/
theorem C103_energy_first_fails_for_power (f : List ℝ) (X : Mat ℂ)
    (S : Option (List ℝ → List ℝ)) (cal : Bool) (range : Option (List ℝ)) (hf : Increasing f)
    (h0 : f ≠ []) (hr : ∀ r, range = some r → r.length = 2) (hc : X.cols ≠ 0) :
    normalizedSpectrum f X false range .energyFirst S cal = .error .valueError := by
  obtain ⟨s, hs⟩ := section_some (f := f) h0 hr
  exact error_offsets hs rfl (part_nonempty hf h0 (section_part hs)) hc rfl

/-- Spectra with power scaling are never smoothed. -/
theorem C103_power_is_not_smoothed (f : List ℝ) (X : Mat ℂ) (range : Option (List ℝ)) (nrm : Norm)
    (S : List ℝ → List ℝ) (cal : Bool) :
    normalizedSpectrum f X false range nrm (some S) cal =
      normalizedSpectrum f X false range nrm none cal := by
  rfl

/-- With amplitude scaling, the levels are those of the smoothed magnitudes. -/
theorem C103_amplitude_is_smoothed (f : List ℝ) (X : Mat ℂ) (nrm : Norm)
    (S : List ℝ → List ℝ) (cal : Bool) (hS : ∀ l, ∀ v ∈ S l, 0 ≤ v) :
    normalizedSpectrum f X true none nrm (some S) cal =
      normalizedSpectrum f ⟨X.rows, X.cols, fun k c =>
        (((S ((List.range f.length).map fun k => ‖X.val k c‖)).getD k 0 : ℝ) : ℂ)⟩ true none nrm none
        cal := by
  have : magnitudes X 0 f.length true (some S) = magnitudes ⟨X.rows, X.cols, fun k c =>
        (((S ((List.range f.length).map fun k => ‖X.val k c‖)).getD k 0 : ℝ) : ℂ)⟩ 0 f.length true
        none := by
    funext k c
    simp only [magnitudes, if_true, Nat.zero_add]
    rw [Complex.norm_real, Real.norm_eq_abs, abs_of_nonneg]
    by_cases hk : k < (S ((List.range f.length).map fun k => ‖X.val k c‖)).length
    · rw [List.getD_eq_getElem _ _ hk]
      exact hS _ _ (List.getElem_mem hk)
    · rw [List.getD_eq_default _ _ (by omega)]
  unfold normalizedSpectrum
  simp only [section_, bind, Except.bind, List.take_length, List.drop_zero, this]

/-- The normalisation at 1 kHz fails for spectra which end at 1 kHz. -/
theorem C103_one_khz_fails_at_the_end (f : List ℝ) (X : Mat ℂ) (amp : Bool)
    (S : Option (List ℝ → List ℝ)) (cal : Bool) (hf : Increasing f) (h1 : 1 < f.length)
    (h2 : f.getD (f.length - 1) 0 = 1000) (hc : X.cols ≠ 0) :
    normalizedSpectrum f X amp none .oneKhz S cal = .error .indexError := by
  have h0 : f.length ≠ 0 := by omega
  refine error_offsets (g := f) (s := (0, f.length)) rfl (by simp) h0 hc ?_
  obtain ⟨n, hn⟩ : ∃ n, X.cols = n + 1 := ⟨X.cols - 1, by omega⟩
  unfold offsets
  simp only
  rw [hn, List.range_succ_eq_map, List.mapM_cons]
  simp only [ExactValue.C102_gain_fails_at_the_end f _ hf h1 h2, bind, Except.bind]

/-- An increasing vector beyond 1 kHz. -/
theorem example_increasing : Increasing ([0, 500, 2000] : List ℝ) := by
  intro i j hij hj
  simp only [List.length_cons, List.length_nil] at hj
  match i, j, hij, hj with
  | 0, 1, _, _ => norm_num
  | 0, 2, _, _ => norm_num
  | 1, 2, _, _ => norm_num
  | 0, 0, h, _ => omega
  | (i + 1), 0, h, _ => omega
  | (i + 1), 1, h, _ => omega
  | (i + 2), 2, h, _ => omega
  | i, (j + 3), _, h => omega

/-- The hypotheses are met: a spectrum of ones with two channels. -/
example : ∃ g E, normalizedSpectrum [0, 500, 2000] ⟨3, 2, fun _ _ => 1⟩ true none .max none true =
    .ok (g, some E) :=
  C103_answered_partial example_increasing (by simp) (by simp)
    (fun i j h => ⟨0, 0, by obtain ⟨rfl, rfl⟩ := h; simp, by simp, by simp⟩) (by simp) (by simp)
    (by simp)

end Verif.NormalizedSpectrum
