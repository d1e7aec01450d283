import Verif.Props.C37
import Mathlib.Tactic.NormNum

/-!
# C37: lengths, kind of data and metadata of multiband signals
-/

namespace Verif.Bands

theorem run_same (same : Bool) (l : List (Option Band)) (st : MB) (h : create same l = (st, none))
    (ops : List Op) : (run st ops).same = same := by
  have hs : ∀ (ops : List Op) (st : MB), st.same = same → Fit same st.bands →
      (run st ops).same = same := by
    intro ops
    induction ops with
    | nil => intro st h _; exact h
    | cons op ops ih =>
      intro st h hf
      have hstep := step_fit st op (by rw [h]; exact hf)
      unfold Good at hstep
      rw [h] at hstep
      exact ih _ hstep.1 hstep.2.1
  obtain ⟨h1, h2, h3, -⟩ := setBands_ok _ _ _ h
  exact hs ops st h1 (by rw [h2]; exact h3)

/-- After every history, rejected operations included, an object with bands of one sampling rate reports the
length in samples, the length in seconds and the kind of data of every one of its bands. -/
theorem C37_lengths (l : List (Option Band)) (st : MB) (h : create true l = (st, none))
    (ops : List Op) (b : Band) (hb : some b ∈ (run st ops).bands) :
    (run st ops).lengthSamples = .one b.length ∧
    (run st ops).lengthSeconds = b.length / b.rate ∧
    (run st ops).isComplex = b.complex := by
  have hf := C37_bands_consistent true l st h ops
  have hs := run_same true l st h ops
  generalize run st ops = s at *
  obtain ⟨same, bands, rate, channels⟩ := s
  subst hs
  cases bands with
  | nil => cases hb
  | cons x r =>
    obtain ⟨b0, rfl⟩ := hf.1 x List.mem_cons_self
    obtain ⟨-, hc, hr⟩ := hf.2 b0 b List.mem_cons_self hb
    obtain ⟨hr, hl⟩ := hr rfl
    refine ⟨?_, ?_, hc⟩
    · show Lengths.one b0.length = _
      rw [hl]
    · show (b0.length : ℚ) / b0.rate = _
      rw [hl, hr]

/-- A multirate object with bands reports all lengths in order, and the kind of data of every band; its
length in seconds is the one of the first band. -/
theorem C37_multirate_lengths (l : List (Option Band)) (st : MB) (h : create false l = (st, none))
    (ops : List Op) (bs : List Band) (hbs : (run st ops).bands = bs.map some) (hne : bs ≠ []) :
    (run st ops).lengthSamples = .many (bs.map Band.length) ∧
    (∀ b ∈ bs, (run st ops).isComplex = b.complex) ∧
    ∀ b, bs.head? = some b → (run st ops).lengthSeconds = b.length / b.rate := by
  have hf := C37_bands_consistent false l st h ops
  have hs := run_same false l st h ops
  generalize run st ops = s at *
  obtain ⟨same, bands, rate, channels⟩ := s
  subst hs
  simp only at hbs hf
  subst hbs
  cases bs with
  | nil => exact absurd rfl hne
  | cons b0 r =>
    refine ⟨?_, fun b hb => ?_, fun b hb => ?_⟩
    · show Lengths.many (List.filterMap (fun x => x.map Band.length) ((b0 :: r).map some)) = _
      rw [List.filterMap_map]
      congr 1
      exact congrFun (List.filterMap_eq_map (f := Band.length)) (b0 :: r)
    · exact (hf.2 b0 b List.mem_cons_self (List.mem_map_of_mem hb)).2.1
    · cases hb
      rfl

/-- Every band of an object is a signal: the form of the bands assumed above is the only one. -/
theorem C37_bands_are_signals (same : Bool) (l : List (Option Band)) (st : MB)
    (h : create same l = (st, none)) (ops : List Op) :
    ∃ bs : List Band, (run st ops).bands = bs.map some := by
  have hf := (C37_bands_consistent same l st h ops).1
  generalize (run st ops).bands = l at hf
  induction l with
  | nil => exact ⟨[], rfl⟩
  | cons x r ih =>
    obtain ⟨bs, hbs⟩ := ih fun y hy => hf y (List.mem_cons_of_mem _ hy)
    obtain ⟨b, rfl⟩ := hf x List.mem_cons_self
    exact ⟨b :: bs, by rw [hbs]; rfl⟩

/-- The metadata after an accepted operation: number of bands and channels always, sampling rate and length of
every band if there is one sampling rate, and only the number 0 for an object without bands. -/
theorem C37_metadata (same : Bool) (l : List (Option Band)) (st : MB) (h : create same l = (st, none))
    (ops : List Op) (op : Op) (hok : (step (run st ops) op).2 = none) :
    ((run st (ops ++ [op])).bands = [] →
      (run st (ops ++ [op])).metadata = ⟨0, none, none, none, none⟩) ∧
    ∀ b, some b ∈ (run st (ops ++ [op])).bands →
      (run st (ops ++ [op])).metadata =
        ⟨(run st (ops ++ [op])).bands.length, some same,
          if same then some (.one b.rate) else none,
          if same then some (.one b.length) else none, some b.channels⟩ := by
  have hrep := C37_reports_after_success same l st h ops op hok
  have hf := C37_bands_consistent same l st h (ops ++ [op])
  have hs := run_same same l st h (ops ++ [op])
  have hl := fun (e : same = true) b => C37_lengths l st (by rw [← e]; exact h) (ops ++ [op]) b
  generalize run st (ops ++ [op]) = s at *
  obtain ⟨sm, bands, rate, channels⟩ := s
  simp only at hs hf
  subst hs
  refine ⟨fun e => if_pos e, fun b hb => ?_⟩
  cases bands with
  | nil => cases hb
  | cons x r =>
    obtain ⟨b0, rfl⟩ := hf.1 x List.mem_cons_self
    obtain ⟨hch, hc, hr⟩ := hf.2 b0 b List.mem_cons_self hb
    obtain ⟨h1, h2⟩ := hrep b0 rfl
    unfold MB.metadata
    rw [if_neg (by simp)]
    cases sm with
    | false =>
      simp only at h1
      rw [if_neg (by simp)]
      simp [h1, hch]
    | true =>
      obtain ⟨hr, -⟩ := hr rfl
      rw [if_pos rfl, (hl rfl b hb).1]
      simp only at h1 h2
      simp [h1, h2, hch, hr]

/-- A multirate object that is declared to have one sampling rate afterwards reports the length of its first
band for all of them, and still a list of sampling rates. -/
theorem C37_length_after_flag_wrong :
    ∃ st : MB, create false [some ⟨0, 48000, 10, 1, false⟩, some ⟨1, 24000, 5, 1, false⟩] = (st, none) ∧
      (setSame st true).lengthSamples = .one 10 ∧
      some ⟨1, 24000, 5, 1, false⟩ ∈ (setSame st true).bands ∧
      (setSame st true).rate = some (.many [48000, 24000]) ∧ (setSame st true).channels = some 1 :=
  ⟨_, rfl, by decide, by decide, by decide, by decide⟩

/-- The metadata of a stereo object with two bands, after a refused and an accepted addition. -/
example : ∃ st, create true [some ⟨0, 48000, 10, 2, false⟩] = (st, none) ∧
    (step (run st [.add (some ⟨1, 48000, 11, 2, false⟩) (-1)])
      (.add (some ⟨2, 48000, 10, 2, false⟩) (-1))).2 = none ∧
    (run st [.add (some ⟨1, 48000, 11, 2, false⟩) (-1), .add (some ⟨2, 48000, 10, 2, false⟩) (-1)]).metadata =
      ⟨2, some true, some (.one 48000), some (.one 10), some 2⟩ :=
  ⟨_, rfl, by decide, by decide⟩

end Verif.Bands
