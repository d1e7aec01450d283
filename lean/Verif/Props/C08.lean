import Verif.Lemmas.Lattice
import Mathlib.Algebra.Field.Rat
import Mathlib.Tactic.NormNum

/-!
# C08: lattice-ladder IIR filters

The full property is false for denominators with `a[0] ≠ 1` and for several sections
of which one is not normalised; the `_partial` theorems cover normalised denominators.
-/

namespace Verif.Lattice

variable {K : Type} [Field K]

/-- **C08**, `b`/`a` coefficients of any order: for `len(b) = len(a) ≥ 2`, `a[0] = 1`
and no reflection coefficient (above the first) equal to ±1, `from_filter` succeeds and
after every history of calls the outputs of a channel since the last reset solve the
difference equation of `b` and `a` for the inputs of that channel.
Missing for the full property: `a[0] ≠ 1`, where the code does not normalise. -/
theorem C08_lattice_iir_partial (b a : List K) (hlen : b.length = a.length) (ha : 2 ≤ a.length)
    (ha0 : a.getD 0 0 = 1)
    (hd : ∀ i, 1 ≤ i → i < a.length - 1 →
      1 - refl (fun m => - a.getD (m + 1) 0) (a.length - 1) i ^ 2 ≠ 0) :
    ∃ F, fromIIR b a = .ok F ∧ ∀ (h : List (Op K)) (ch : ℕ),
      SolvesDE b a (pastInputs ch (dropZeroChannels h))
        ((F.log ch (dropZeroChannels h)).map Prod.snd) ∧
      ∀ x, ch < nChannels (dropZeroChannels h) → ∃ y, F.answer h x ch = .ok y ∧
        SolvesDE b a (x :: pastInputs ch (dropZeroChannels h))
          (y :: (F.log ch (dropZeroChannels h)).map Prod.snd) := by
  have hok : ∃ F, fromIIR b a = .ok F := by
    unfold fromIIR
    simp only
    rw [if_neg (by omega), if_neg (by omega)]
    exact ⟨_, rfl⟩
  obtain ⟨F, hF⟩ := hok
  have hF' := hF
  unfold fromIIR at hF'
  simp only at hF'
  rw [if_neg (by omega), if_neg (by omega)] at hF'
  have hF'' := (Except.ok.inj hF').symm
  subst hF''
  refine ⟨_, hF, fun h ch => ?_⟩
  · rw [RTFilter.positiveChannels_log, Column.lift_log, List.map_snd_zip (by
      rw [Column.outs_length])]
    refine ⟨iir_solvesDE b a hlen ha ha0 hd _, fun x hch => ?_⟩
    rw [RTFilter.positiveChannels_answer, Column.lift_answer, if_pos hch]
    exact ⟨_, rfl, iir_solvesDE b a hlen ha ha0 hd (x :: _)⟩

/-- **C08**, numerators of a different length are rejected. -/
theorem C08_length_mismatch_raises (b a : List K) (hlen : b.length ≠ a.length) :
    fromIIR b a = .error (if a.length < b.length then .indexError else .assertionError) := by
  unfold fromIIR
  simp only
  split
  · rfl
  · rw [if_pos (by omega)]

/-- **C08** is false for `a[0] ≠ 1`: for `b = [2, 0]`, `a = [2, 1]` the first output for
the input 1 is 2, whereas the difference equation gives 1. -/
theorem C08_unnormalised_false :
    ∃ F, fromIIR ([2, 0] : List ℚ) [2, 1] = .ok F ∧ F.answer [] 1 0 = .ok 2 ∧
      SolvesDE ([2, 0] : List ℚ) [2, 1] [1] [1] := by
  refine ⟨_, rfl, ?_, rfl, fun j => ?_⟩
  · rw [RTFilter.positiveChannels_answer, Column.lift_answer]
    simp [nChannels, dropZeroChannels, pastInputs, Column.out, Column.colAfter, iirColumn,
      iirStep, iirLoop, iirBody, ladderLoop, refl, aS, rows]
  · cases j <;> simp [tapSum, Finset.sum_range_succ]

/-- **C08**, second-order sections: if every section has `a0 = 1` (and `a2 ≠ ±1`),
`from_filter` succeeds and the outputs of a channel since the last reset are the inputs
sent through the difference equations of the sections one after the other.
Missing for the full property: sections with `a0 ≠ 1` (see below). -/
theorem C08_lattice_sos_partial [DecidableEq K] (sos : List (Sos K)) (h0 : ∀ s ∈ sos, s.a0 = 1)
    (h2 : ∀ s ∈ sos, 1 - s.a2 ^ 2 ≠ 0) :
    ∃ F, fromSos sos = .ok F ∧ ∀ (h : List (Op K)) (ch : ℕ),
      SolvesCascade (sos.map fun s => ([s.b0, s.b1, s.b2], [s.a0, s.a1, s.a2]))
        (pastInputs ch (dropZeroChannels h)) ((F.log ch (dropZeroChannels h)).map Prod.snd) ∧
      ∀ x, ch < nChannels (dropZeroChannels h) → ∃ y, F.answer h x ch = .ok y ∧
        SolvesCascade (sos.map fun s => ([s.b0, s.b1, s.b2], [s.a0, s.a1, s.a2]))
          (x :: pastInputs ch (dropZeroChannels h))
          (y :: (F.log ch (dropZeroChannels h)).map Prod.snd) := by
  have key : ∀ xs, SolvesCascade (sos.map fun s => ([s.b0, s.b1, s.b2], [s.a0, s.a1, s.a2]))
      xs ((sosColumn (sos.map sectionOf)).outs xs) := by
    induction sos with
    | nil => intro xs; exact sos_outs_nil xs
    | cons s sos ih =>
      intro xs
      rw [List.map_cons, List.map_cons, sos_outs]
      refine ⟨_, section_solvesDE s (h0 s (by simp)) (h2 s (by simp)) xs, ?_⟩
      exact ih (fun t ht => h0 t (by simp [ht])) (fun t ht => h2 t (by simp [ht])) _
  refine ⟨(sosColumn (sos.map sectionOf)).lift.positiveChannels, ?_, fun h ch => ?_⟩
  · unfold fromSos normaliseSos
    rw [if_pos h0]
  · rw [RTFilter.positiveChannels_log, Column.lift_log, List.map_snd_zip (by
      rw [Column.outs_length])]
    refine ⟨key _, fun x hch => ?_⟩
    rw [RTFilter.positiveChannels_answer, Column.lift_answer, if_pos hch]
    exact ⟨_, rfl, key (x :: _)⟩

/-- **C08** is false for several sections of which one is not normalised: unless there
are exactly one or six sections, `from_filter` raises ValueError. -/
theorem C08_sos_unnormalised_raises_false [DecidableEq K] (sos : List (Sos K))
    (h0 : ∃ s ∈ sos, s.a0 ≠ 1) (h1 : sos.length ≠ 1) (h6 : sos.length ≠ 6) :
    fromSos sos = .error .valueError := by
  have : ¬ ∀ s ∈ sos, s.a0 = 1 := by
    intro h
    obtain ⟨s, hs, hne⟩ := h0
    exact hne (h s hs)
  unfold fromSos normaliseSos
  rw [if_neg this, if_neg h1, if_neg h6]

/-- **C08** is false for six sections with `a0 ≠ 1`: the division runs along the coefficients instead of the
sections, so that the coefficient `j` of every section is divided by the `a0` of the section `j`. -/
theorem C08_six_sections_mixed [DecidableEq K] (s0 s1 s2 s3 s4 s5 : Sos K)
    (h : ∃ s ∈ [s0, s1, s2, s3, s4, s5], s.a0 ≠ 1) :
    normaliseSos [s0, s1, s2, s3, s4, s5] = .ok ([s0, s1, s2, s3, s4, s5].map fun s =>
      ⟨s.b0 / s0.a0, s.b1 / s1.a0, s.b2 / s2.a0, s.a0 / s3.a0, s.a1 / s4.a0, s.a2 / s5.a0⟩) := by
  unfold normaliseSos
  rw [if_neg (fun h' => by obtain ⟨s, hs, hne⟩ := h; exact hne (h' s hs)), if_neg (by simp), if_pos (by simp)]
  rfl

/-- Witness: the normalised first section `1 / (1 + z⁻²/2)` comes out as `1 / (1 + z⁻²/4)` because the last of
the six sections has `a0 = 2`. -/
example : ∃ t, normaliseSos ([⟨1, 0, 0, 1, 0, 1 / 2⟩, ⟨1, 0, 0, 1, 0, 0⟩, ⟨1, 0, 0, 1, 0, 0⟩, ⟨1, 0, 0, 1, 0, 0⟩,
    ⟨1, 0, 0, 1, 0, 0⟩, ⟨2, 0, 0, 2, 0, 0⟩] : List (Sos ℚ)) = .ok (⟨1, 0, 0, 1, 0, 1 / 4⟩ :: t) := by
  rw [C08_six_sections_mixed _ _ _ _ _ _ ⟨⟨2, 0, 0, 2, 0, 0⟩, by simp, by norm_num⟩]
  rw [List.map_cons]
  exact ⟨_, by norm_num; rfl⟩

/-- **C08**, a single section with arbitrary `a0 ≠ 0` is normalised correctly. -/
theorem C08_single_section [DecidableEq K] (s : Sos K) (h0 : s.a0 ≠ 0)
    (h2 : 1 - (s.a2 / s.a0) ^ 2 ≠ 0) :
    ∃ F, fromSos [s] = .ok F ∧ ∀ (h : List (Op K)) (ch : ℕ) (x : K),
      ch < nChannels (dropZeroChannels h) → ∃ y, F.answer h x ch = .ok y ∧
        SolvesDE [s.b0, s.b1, s.b2] [s.a0, s.a1, s.a2]
          (x :: pastInputs ch (dropZeroChannels h))
          (y :: (F.log ch (dropZeroChannels h)).map Prod.snd) := by
  set s' : Sos K := s.div fun _ => s.a0 with hs'
  have hnorm : normaliseSos [s] = .ok [s'] := by
    unfold normaliseSos
    split
    · rename_i h
      have h1 : s.a0 = 1 := h s (by simp)
      have : s' = s := by
        rw [hs', h1]; cases s; simp [Sos.div]
      rw [this]
    · simp [hs']
  have h1' : s'.a0 = 1 := by simp [hs', Sos.div, h0]
  have hde : ∀ xs, SolvesDE [s.b0, s.b1, s.b2] [s.a0, s.a1, s.a2] xs
      ((sosColumn [sectionOf s']).outs xs) := by
    intro xs
    rw [sos_outs, sos_outs_nil]
    obtain ⟨hl, hj⟩ := section_solvesDE s' h1' (by simpa [hs', Sos.div] using h2) xs
    refine ⟨hl, fun j => ?_⟩
    have := hj j
    rw [tapSum_three, tapSum_three] at this ⊢
    simp only [hs', Sos.div] at this
    field_simp at this
    exact this
  refine ⟨(sosColumn [sectionOf s']).lift.positiveChannels, ?_, fun h ch x hch => ?_⟩
  · unfold fromSos
    rw [hnorm]
    rfl
  · rw [RTFilter.positiveChannels_log, Column.lift_log, List.map_snd_zip (by
      rw [Column.outs_length]), RTFilter.positiveChannels_answer, Column.lift_answer, if_pos hch]
    exact ⟨_, rfl, hde (x :: _)⟩

omit [Field K] in
/-- **C08**, block processing: filtering a block (oldest sample first) from the state
reached by earlier samples gives the outputs and the state of sample-wise processing,
for every lattice structure; so results do not depend on the cutting into blocks. -/
theorem C08_block_equals_samples (C : Column K) (past xs : List K) :
    (block C (C.colAfter past) xs).1.reverse ++ C.outs past = C.outs (xs.reverse ++ past) ∧
    (block C (C.colAfter past) xs).2 = C.colAfter (xs.reverse ++ past) := by
  induction xs generalizing past with
  | nil => exact ⟨rfl, rfl⟩
  | cons x xs ih =>
    obtain ⟨h1, h2⟩ := ih (x :: past)
    have hs : C.colAfter (x :: past) = (C.step (C.colAfter past) x).2 := rfl
    rw [hs] at h1 h2
    simp only [block, List.reverse_cons, List.append_assoc, List.singleton_append]
    exact ⟨h1, h2⟩

/-- A third-order filter meeting the hypotheses of `C08_lattice_iir_partial`. -/
example : ∀ i, 1 ≤ i → i < ([1, 1 / 2, 0, 1 / 3] : List ℚ).length - 1 →
    1 - refl (fun m => - ([1, 1 / 2, 0, 1 / 3] : List ℚ).getD (m + 1) 0)
      (([1, 1 / 2, 0, 1 / 3] : List ℚ).length - 1) i ^ 2 ≠ 0 := by
  intro i h1 h2
  have h2' : i < 3 := by simpa using h2
  match i, h1, h2' with
  | 1, _, _ => simp [refl, aS, rows]; norm_num
  | 2, _, _ => simp [refl, aS, rows]; norm_num

/-- Two concrete sections meeting the hypotheses of `C08_lattice_sos_partial`. -/
example : ∀ s ∈ [(⟨1, 2, 3, 1, 1 / 2, 1 / 4⟩ : Sos ℚ), ⟨0, 1, 1, 1, -1, 1 / 3⟩],
    s.a0 = 1 ∧ 1 - s.a2 ^ 2 ≠ 0 := by
  intro s hs
  simp only [List.mem_cons, List.not_mem_nil, or_false] at hs
  rcases hs with rfl | rfl <;> norm_num

end Verif.Lattice
