import Verif.Props.C103
import Verif.Props.C89
import Verif.Props.C46
import Mathlib.Tactic.LinearCombination

/-!
# C103: phases of normalised spectra

"With `phase=True` the levels are the same, and the phases belong to the bins of the requested range.  Without
smoothing they are the angles of the bins; with smoothing they are the smoothed continuous phase, wrapped."
-/

namespace Verif.NormalizedSpectrum

/-- A smoothing that keeps the number of values and is not affected by a constant offset. -/
def KeepsOffsets (S : List ℝ → List ℝ) : Prop :=
  ∀ (l : List ℝ) (d : ℝ), S (l.map (· + d)) = (S l).map (· + d) ∧ (S l).length = l.length

theorem phase_elim {f : List ℝ} {X : Mat ℂ} {amp : Bool} {range : Option (List ℝ)} {nrm : Norm}
    {S : Option (List ℝ → List ℝ)} {cal : Bool} {g : List ℝ} {D : Option (Mat ℝ)} {P : Mat ℝ}
    (h : normalizedSpectrumPhase f X true amp range nrm S cal = .ok (g, D, P)) :
    normalizedSpectrum f X amp range nrm S cal = .ok (g, D) ∧
      ∃ s, section_ f range = .ok s ∧ g = (f.take s.2).drop s.1 ∧ P = phases X s.1 g.length S := by
  unfold normalizedSpectrumPhase at h
  simp only [Bool.true_eq_false, if_false, bind, Except.bind] at h
  cases hr : normalizedSpectrum f X amp range nrm S cal with
  | error e => rw [hr] at h; cases h
  | ok r =>
    rw [hr] at h
    cases hs : section_ f range with
    | error e => rw [hs] at h; cases h
    | ok s =>
      rw [hs] at h
      simp only [Except.ok.injEq, Prod.mk.injEq] at h
      obtain ⟨h1, h2, h3⟩ := h
      refine ⟨by rw [← h1, ← h2], s, rfl, ?_, by rw [← h3, h1]⟩
      rw [← h1]
      unfold normalizedSpectrum at hr
      simp only [hs, bind, Except.bind] at hr
      split at hr
      · cases hr
      · split at hr
        · cases hr
        · split at hr
          · cases hr; rfl
          · split at hr <;> cases hr <;> rfl

/-- Levels and frequencies are those of the call without phases; without smoothing the phases are the angles of
the bins in the range. -/
theorem C103_phase {f : List ℝ} {X : Mat ℂ} {amp : Bool} {range : Option (List ℝ)} {nrm : Norm}
    {cal : Bool} {g : List ℝ} {D : Option (Mat ℝ)} {P : Mat ℝ}
    (h : normalizedSpectrumPhase f X true amp range nrm none cal = .ok (g, D, P)) :
    normalizedSpectrum f X amp range nrm none cal = .ok (g, D) ∧
    ∃ i j, Part f range i j ∧ g = (f.take j).drop i ∧ P.rows = g.length ∧ P.cols = X.cols ∧
      ∀ k < g.length, ∀ c < X.cols, -Real.pi < P.val k c ∧ P.val k c ≤ Real.pi ∧
        X.val (i + k) c = ‖X.val (i + k) c‖ * Complex.exp (P.val k c * Complex.I) := by
  obtain ⟨h1, s, hs, hg, rfl⟩ := phase_elim h
  refine ⟨h1, s.1, s.2, section_part hs, hg, rfl, rfl, fun k _ c _ => ?_⟩
  simp only [phases]
  exact ⟨Complex.neg_pi_lt_arg _, Complex.arg_le_pi _, (Complex.norm_mul_exp_arg_mul_I _).symm⟩

/-- With smoothing: let `u` be a phase of the bins of channel `c` in the range whose steps are shorter than half a
turn.  The phases lie between `-π` and `π` and differ from the smoothed `u` by whole turns. -/
theorem C103_phase_smoothed {f : List ℝ} {X : Mat ℂ} {amp : Bool} {range : Option (List ℝ)} {nrm : Norm}
    {S : List ℝ → List ℝ} (hS : KeepsOffsets S)
    {cal : Bool} {g : List ℝ} {D : Option (Mat ℝ)} {P : Mat ℝ}
    (h : normalizedSpectrumPhase f X true amp range nrm (some S) cal = .ok (g, D, P)) :
    normalizedSpectrum f X amp range nrm (some S) cal = .ok (g, D) ∧
    ∃ i j, Part f range i j ∧ g = (f.take j).drop i ∧ P.rows = g.length ∧ P.cols = X.cols ∧
      ∀ c < X.cols, ∀ u : ℕ → ℝ, (∀ k, k + 1 < g.length → |u (k + 1) - u k| < Real.pi) →
        (∀ k < g.length, X.val (i + k) c ≠ 0 ∧
          X.val (i + k) c = ‖X.val (i + k) c‖ * Complex.exp (u k * Complex.I)) →
        ∀ k < g.length, -Real.pi ≤ P.val k c ∧ P.val k c < Real.pi ∧
          ∃ m : ℤ, P.val k c = (S ((List.range g.length).map u)).getD k 0 + m * (2 * Real.pi) := by
  obtain ⟨h1, s, hs, hg, rfl⟩ := phase_elim h
  refine ⟨h1, s.1, s.2, section_part hs, hg, rfl, rfl, fun c _ u hu hX k hk => ?_⟩
  simp only [phases]
  have hturn : ∀ k < g.length, ∃ m : ℤ, (X.val (s.1 + k) c).arg = u k + m * (2 * Real.pi) := by
    intro k hk
    obtain ⟨hne, he⟩ := hX k hk
    have hn : ((‖X.val (s.1 + k) c‖ : ℝ) : ℂ) ≠ 0 := by
      exact_mod_cast norm_ne_zero_iff.2 hne
    have h2 : Complex.exp ((X.val (s.1 + k) c).arg * Complex.I) = Complex.exp (u k * Complex.I) :=
      mul_left_cancel₀ hn ((Complex.norm_mul_exp_arg_mul_I _).trans he)
    obtain ⟨m, hm⟩ := Complex.exp_eq_exp_iff_exists_int.1 h2
    refine ⟨m, ?_⟩
    have h3 : ((X.val (s.1 + k) c).arg : ℂ) = ((u k + m * (2 * Real.pi) : ℝ) : ℂ) := by
      apply mul_right_cancel₀ Complex.I_ne_zero
      rw [hm]
      push_cast
      ring
    exact_mod_cast h3
  obtain ⟨m0, hm0⟩ := hturn 0 (by omega)
  have hl : (List.range g.length).map (Spectrum.unwrap fun k => (X.val (s.1 + k) c).arg) =
      ((List.range g.length).map u).map (· + m0 * (2 * Real.pi)) := by
    rw [List.map_map]
    refine List.map_congr_left fun k hk => ?_
    rw [GroupDelay.unwrap_phase g.length u _ hu hturn k (List.mem_range.1 hk)]
    simp only [Function.comp_apply]
    rw [hm0]
    ring
  rw [hl]
  obtain ⟨h4, h5⟩ := hS ((List.range g.length).map u) (m0 * (2 * Real.pi))
  rw [h4]
  have h6 : k < (S ((List.range g.length).map u)).length := by rw [h5]; simpa using hk
  have h7 : ((S ((List.range g.length).map u)).map (· + m0 * (2 * Real.pi))).getD k 0 =
      (S ((List.range g.length).map u)).getD k 0 + m0 * (2 * Real.pi) := by
    rw [List.getD_eq_getElem _ _ (by simpa using h6), List.getD_eq_getElem _ _ h6, List.getElem_map]
  rw [h7]
  obtain ⟨h8, h9⟩ := Helpers.C46_range ((S ((List.range g.length).map u)).getD k 0 + m0 * (2 * Real.pi))
  obtain ⟨m, hm⟩ := Helpers.C46_turns ((S ((List.range g.length).map u)).getD k 0 + m0 * (2 * Real.pi))
  refine ⟨h8, h9, m + m0, ?_⟩
  rw [hm]
  push_cast
  ring

/-- Spectra which are not complex are refused, and so is everything that is refused without phases. -/
theorem C103_phase_refused (f : List ℝ) (X : Mat ℂ) (amp : Bool) (range : Option (List ℝ)) (nrm : Norm)
    (S : Option (List ℝ → List ℝ)) (cal : Bool) :
    normalizedSpectrumPhase f X false amp range nrm S cal = .error .assertionError ∧
    ∀ e, normalizedSpectrum f X amp range nrm S cal = .error e →
      normalizedSpectrumPhase f X true amp range nrm S cal = .error e := by
  refine ⟨rfl, fun e h => ?_⟩
  unfold normalizedSpectrumPhase
  simp only [Bool.true_eq_false, if_false, h, bind, Except.bind]

/-- Moving averages keep offsets; the simplest one is the identity. -/
example : KeepsOffsets id := fun _ _ => ⟨rfl, rfl⟩

/-- The call with phases is answered whenever the one without is. -/
example : ∃ g E P, normalizedSpectrumPhase [0, 500, 2000] ⟨3, 2, fun _ _ => Complex.I⟩ true true none .max none
    true = .ok (g, some E, P) := by
  obtain ⟨g, E, h⟩ := C103_answered_partial (X := ⟨3, 2, fun _ _ => Complex.I⟩) (amp := true) (range := none)
    (nrm := .max) (cal := true) example_increasing (by simp) (by simp)
    (fun i j h => ⟨0, 0, by obtain ⟨rfl, rfl⟩ := h; simp, by simp, by simp⟩) (by simp) (by simp) (by simp)
  refine ⟨g, E, phases ⟨3, 2, fun _ _ => Complex.I⟩ 0 g.length none, ?_⟩
  unfold normalizedSpectrumPhase
  simp only [Bool.true_eq_false, if_false, h, bind, Except.bind, section_]

end Verif.NormalizedSpectrum
