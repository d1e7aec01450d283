import Verif.Model.NormalizedSpectrum
import Verif.Lemmas.ExactValue
import Verif.Lemmas.Framing
import Mathlib.Tactic.LinearCombination

/-!
# Lemmas on the normalised spectra
-/

namespace Verif.NormalizedSpectrum

open Verif.Level

theorem dbFactor_pos (amp : Bool) : 0 < dbFactor amp := by
  unfold dbFactor; split <;> norm_num

theorem maxAbs_nonneg (l : List ℝ) : 0 ≤ maxAbs l := by
  unfold maxAbs
  induction l with
  | nil => simp
  | cons a l ih => simp only [List.map_cons, List.foldr_cons]; exact le_max_of_le_right ih

theorem le_maxAbs {l : List ℝ} {x : ℝ} (h : x ∈ l) : |x| ≤ maxAbs l := by
  unfold maxAbs
  induction l with
  | nil => simp at h
  | cons a l ih =>
    simp only [List.map_cons, List.foldr_cons]
    rcases List.mem_cons.mp h with rfl | h
    · exact le_max_left _ _
    · exact le_max_of_le_right (ih h)

theorem maxAbs_mem {l : List ℝ} (h : l ≠ []) : ∃ x ∈ l, maxAbs l = |x| := by
  unfold maxAbs
  induction l with
  | nil => exact absurd rfl h
  | cons a l ih =>
    simp only [List.map_cons, List.foldr_cons]
    by_cases hl : l = []
    · subst hl
      exact ⟨a, by simp, by simp⟩
    · obtain ⟨x, hx, e⟩ := ih hl
      rw [e]
      rcases le_total |a| |x| with h | h
      · exact ⟨x, List.mem_cons_of_mem _ hx, max_eq_right h⟩
      · exact ⟨a, by simp, max_eq_left h⟩

theorem mem_entries {n ch : ℕ} {m : ℕ → ℕ → ℝ} {x : ℝ} :
    x ∈ entries n ch m ↔ ∃ k < n, ∃ c < ch, m k c = x := by
  simp [entries]

theorem entries_ne {n ch : ℕ} {m : ℕ → ℕ → ℝ} (hn : 0 < n) (hc : 0 < ch) : entries n ch m ≠ [] :=
  List.ne_nil_of_mem (mem_entries.mpr ⟨0, hn, 0, hc, rfl⟩)

theorem maxAbs_pos {n ch : ℕ} {m : ℕ → ℕ → ℝ} (h : maxAbs (entries n ch m) ≠ 0) {s : ℝ}
    (hs : 0 < s) : 0 < maxAbs (entries n ch fun k c => m k c / s) := by
  have hne : entries n ch m ≠ [] := by
    intro he
    rw [he] at h
    exact h rfl
  obtain ⟨x, hx, e⟩ := maxAbs_mem hne
  obtain ⟨k, hk, c, hc, rfl⟩ := mem_entries.mp hx
  have := le_maxAbs (mem_entries.mpr ⟨k, hk, c, hc, rfl⟩ :
    m k c / s ∈ entries n ch fun k c => m k c / s)
  refine lt_of_lt_of_le ?_ this
  rw [abs_div, abs_of_pos hs]
  refine div_pos ?_ hs
  rw [← e]
  exact lt_of_le_of_ne (maxAbs_nonneg _) (Ne.symm h)

theorem columnMax_spec (n : ℕ) (d : ℕ → ℝ) (hn : 0 < n) :
    (∀ k < n, d k ≤ columnMax n d) ∧ ∃ k < n, columnMax n d = d k := by
  obtain ⟨n, rfl⟩ : ∃ m, n = m + 1 := ⟨n - 1, by omega⟩
  unfold columnMax
  rw [Nat.add_sub_cancel]
  clear hn
  induction n with
  | zero =>
    refine ⟨fun k hk => ?_, 0, by omega, by simp⟩
    have : k = 0 := by omega
    subst this
    simp
  | succ n ih =>
    rw [List.range_succ, List.foldl_append]
    simp only [List.foldl_cons, List.foldl_nil]
    obtain ⟨h1, k, hk, h2⟩ := ih
    refine ⟨fun j hj => ?_, ?_⟩
    · rcases (by omega : j < n + 1 ∨ j = n + 1) with h | rfl
      · exact le_max_of_le_left (h1 j h)
      · exact le_max_right _ _
    · rcases le_total (d k) (d (n + 1)) with h | h
      · exact ⟨n + 1, by omega, by rw [h2]; exact max_eq_right h⟩
      · exact ⟨k, by omega, by rw [h2]; exact max_eq_left h⟩

theorem scale_pos (amp cal : Bool) (nrm : Norm) : 0 < scale amp cal nrm := by
  unfold scale
  split <;> split <;> norm_num

theorem scale_one (amp cal : Bool) {nrm : Norm} (h : nrm ≠ .no) : scale amp cal nrm = 1 := by
  unfold scale
  split <;> rw [if_neg fun x => h x.2]

theorem scale_uncal (amp : Bool) (nrm : Norm) : scale amp false nrm = 1 := by
  unfold scale
  split <;> simp

/-- What a successful call says. -/
theorem ok_elim {f : List ℝ} {X : Mat ℂ} {amp : Bool} {range : Option (List ℝ)} {nrm : Norm}
    {S : Option (List ℝ → List ℝ)} {cal : Bool} {g : List ℝ} {E : Mat ℝ}
    (h : normalizedSpectrum f X amp range nrm S cal = .ok (g, some E)) :
    ∃ s o, section_ f range = .ok s ∧ g = (f.take s.2).drop s.1 ∧ g.length ≠ 0 ∧ X.cols ≠ 0 ∧
      maxAbs (entries g.length X.cols (magnitudes X s.1 g.length amp S)) ≠ 0 ∧
      offsets g g.length X.cols amp (magnitudes X s.1 g.length amp S)
        (decibel g.length X.cols amp fun k c =>
          magnitudes X s.1 g.length amp S k c / scale amp cal nrm) nrm = .ok (some o) ∧
      E = ⟨g.length, X.cols, fun k c => decibel g.length X.cols amp (fun k c =>
          magnitudes X s.1 g.length amp S k c / scale amp cal nrm) k c - o c⟩ := by
  unfold normalizedSpectrum at h
  cases hs : section_ f range with
  | error e => simp only [hs, bind, Except.bind] at h; cases h
  | ok s =>
    simp only [hs, bind, Except.bind] at h
    by_cases h1 : ((f.take s.2).drop s.1).length = 0 ∨ X.cols = 0
    · rw [if_pos h1] at h; cases h
    · rw [if_neg h1] at h
      rw [not_or] at h1
      cases ho : offsets ((f.take s.2).drop s.1) ((f.take s.2).drop s.1).length X.cols amp
        (magnitudes X s.1 ((f.take s.2).drop s.1).length amp S)
        (decibel ((f.take s.2).drop s.1).length X.cols amp fun k c =>
          magnitudes X s.1 ((f.take s.2).drop s.1).length amp S k c / scale amp cal nrm) nrm with
      | error e => rw [ho] at h; cases h
      | ok o =>
        rw [ho] at h
        dsimp only at h
        by_cases h2 : maxAbs (entries ((f.take s.2).drop s.1).length X.cols
            (magnitudes X s.1 ((f.take s.2).drop s.1).length amp S)) = 0
        · rw [if_pos h2] at h; cases h
        · rw [if_neg h2] at h
          cases o with
          | none => cases h
          | some o =>
            injection h with h
            injection h with ha hb
            injection hb with hb
            subst ha
            exact ⟨s, o, rfl, rfl, h1.1, h1.2, h2, ho, hb.symm⟩

/-- And what makes a call succeed. -/
theorem ok_intro {f : List ℝ} {X : Mat ℂ} {amp : Bool} {range : Option (List ℝ)} {nrm : Norm}
    {S : Option (List ℝ → List ℝ)} {cal : Bool} {g : List ℝ} {s : ℕ × ℕ} {o : ℕ → ℝ}
    (hs : section_ f range = .ok s) (hg : g = (f.take s.2).drop s.1) (h1 : g.length ≠ 0)
    (h2 : X.cols ≠ 0)
    (h3 : maxAbs (entries g.length X.cols (magnitudes X s.1 g.length amp S)) ≠ 0)
    (h4 : offsets g g.length X.cols amp (magnitudes X s.1 g.length amp S)
        (decibel g.length X.cols amp fun k c =>
          magnitudes X s.1 g.length amp S k c / scale amp cal nrm) nrm = .ok (some o)) :
    ∃ E, normalizedSpectrum f X amp range nrm S cal = .ok (g, some E) := by
  subst hg
  unfold normalizedSpectrum
  simp only [hs, bind, Except.bind]
  rw [if_neg (by rintro (h | h); exact h1 h; exact h2 h), h4]
  dsimp only
  rw [if_neg h3]
  exact ⟨_, rfl⟩

theorem error_offsets {f : List ℝ} {X : Mat ℂ} {amp : Bool} {range : Option (List ℝ)} {nrm : Norm}
    {S : Option (List ℝ → List ℝ)} {cal : Bool} {g : List ℝ} {s : ℕ × ℕ} {e : Err}
    (hs : section_ f range = .ok s) (hg : g = (f.take s.2).drop s.1) (h1 : g.length ≠ 0)
    (h2 : X.cols ≠ 0)
    (h4 : offsets g g.length X.cols amp (magnitudes X s.1 g.length amp S)
        (decibel g.length X.cols amp fun k c =>
          magnitudes X s.1 g.length amp S k c / scale amp cal nrm) nrm = .error e) :
    normalizedSpectrum f X amp range nrm S cal = .error e := by
  subst hg
  unfold normalizedSpectrum
  simp only [hs, bind, Except.bind]
  rw [if_neg (by rintro (h | h); exact h1 h; exact h2 h), h4]

theorem nearest_mono {f : List ℝ} (hf : Increasing f) {a b : ℝ} (hab : a ≤ b) {i j : ℕ}
    (hi : Helpers.FirstMin (f.map fun v => |a - v|) i)
    (hj : Helpers.FirstMin (f.map fun v => |b - v|) j) : i ≤ j := by
  by_contra hn
  have hget : ∀ (q : ℝ), ∀ i < f.length, (f.map fun v => |q - v|).getD i 0 = |q - f.getD i 0| := by
    intro q i hi
    rw [List.getD_eq_getElem _ _ (by simpa using hi), List.getElem_map,
      List.getD_eq_getElem _ _ hi]
  have hil : i < f.length := by simpa using hi.1
  have hjl : j < f.length := by simpa using hj.1
  have h1 := hi.2.2 j (by omega)
  have h2 := hj.2.1 i (by simpa using hil)
  rw [hget _ _ hil, hget _ _ hjl] at h1
  rw [hget _ _ hil, hget _ _ hjl] at h2
  have h3 := hf j i (by omega) hil
  rcases abs_cases (a - f.getD i 0) with ⟨e1, _⟩ | ⟨e1, _⟩ <;>
  rcases abs_cases (a - f.getD j 0) with ⟨e2, _⟩ | ⟨e2, _⟩ <;>
  rcases abs_cases (b - f.getD i 0) with ⟨e3, _⟩ | ⟨e3, _⟩ <;>
  rcases abs_cases (b - f.getD j 0) with ⟨e4, _⟩ | ⟨e4, _⟩ <;>
  rw [e1, e2] at h1 <;> rw [e3, e4] at h2 <;> linarith

theorem mapM_getD {α β : Type} [Inhabited α] (F : α → Except Err (Option β)) :
    ∀ (l : List α) (r : List (Option β)), l.mapM F = .ok r → ∀ (c : ℕ) (hc : c < l.length),
      ∃ a, F l[c] = .ok a ∧ r.getD c none = a := by
  intro l
  induction l with
  | nil => intro r _ c hc; simp at hc
  | cons x l ih =>
    intro r hr c hc
    rw [List.mapM_cons] at hr
    cases hx : F x with
    | error e => simp only [hx, bind, Except.bind] at hr; cases hr
    | ok a =>
      cases ht : l.mapM F with
      | error e => simp only [hx, ht, bind, Except.bind] at hr; cases hr
      | ok t =>
        simp only [hx, ht, bind, Except.bind, pure, Except.pure] at hr
        injection hr with hr
        subst hr
        cases c with
        | zero => exact ⟨a, hx, rfl⟩
        | succ c => exact ih t ht c (by simpa using hc)

theorem polygon_shift {f y : List ℝ} (hl : f.length = y.length) {q v : ℝ} (h : OnPolygon f y q v) :
    OnPolygon f (y.map (· - v)) q 0 := by
  have hget : ∀ i < f.length, (y.map (· - v)).getD i 0 = y.getD i 0 - v := by
    intro i hi
    rw [List.getD_eq_getElem _ _ (by simpa [← hl] using hi), List.getElem_map,
      List.getD_eq_getElem _ _ (by omega)]
  refine ⟨fun i hi a b => ?_, fun i hi a => ?_, h.2.2⟩
  · have := h.1 i hi a b
    rw [hget i (by omega), hget (i + 1) hi]
    linear_combination this
  · have := h.2.1 i hi a
    rw [hget i hi]
    linarith

end Verif.NormalizedSpectrum
