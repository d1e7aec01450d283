import Verif.Model.Bands
import Mathlib.Data.List.InsertIdx
import Mathlib.Data.List.GetD
import Mathlib.Data.List.Nodup
import Mathlib.Data.List.Perm.Subperm
import Mathlib.Data.Fintype.Card
import Mathlib.Data.List.FinRange
import Mathlib.Data.Int.Basic

/-!
# C37: multiband signals and filter banks stay consistent, also after rejected operations
-/

namespace Verif.Bands

/-- The bands fit together: all are signals with the same channel count and realness, and
the same sampling rate and length if the object is not multirate. -/
def Fit (same : Bool) (l : List (Option Band)) : Prop :=
  (∀ x ∈ l, ∃ b, x = some b) ∧
  ∀ b b', some b ∈ l → some b' ∈ l → b.channels = b'.channels ∧ b.complex = b'.complex ∧
    (same = true → b.rate = b'.rate ∧ b.length = b'.length)

/-- The reported channel count and sampling rate are those of the bands. -/
def Reports (st : MB) : Prop :=
  ∀ b, st.bands.head? = some (some b) → st.channels = some b.channels ∧
    st.rate = some (if st.same then .one b.rate
      else .many (st.bands.filterMap fun x => x.map Band.rate))

theorem scanOk_iff (b0 : Band) (l : List (Option Band)) :
    scanOk b0 l = true ↔ ∀ x ∈ l, ∃ b, x = some b ∧ b.channels = b0.channels ∧
      b.complex = b0.complex := by
  unfold scanOk
  rw [List.all_eq_true]
  refine forall_congr' fun x => forall_congr' fun _ => ?_
  cases x <;> simp

theorem ratesOk_iff (b0 : Band) (l : List (Option Band)) :
    ratesOk b0 l = true ↔ ∀ x ∈ l, ∃ b, x = some b ∧ b.rate = b0.rate ∧
      b.length = b0.length := by
  unfold ratesOk
  rw [List.all_eq_true]
  refine forall_congr' fun x => forall_congr' fun _ => ?_
  cases x <;> simp

theorem fit_of_checks (same : Bool) (b0 : Band) (l : List (Option Band)) (h1 : scanOk b0 l = true)
    (h2 : same = true → ratesOk b0 l = true) : Fit same l := by
  rw [scanOk_iff] at h1
  rw [ratesOk_iff] at h2
  refine ⟨fun x hx => ?_, fun b b' hb hb' => ?_⟩
  · obtain ⟨b, hb, -⟩ := h1 x hx
    exact ⟨b, hb⟩
  · obtain ⟨c, hc, h3, h4⟩ := h1 _ hb
    obtain ⟨c', hc', h3', h4'⟩ := h1 _ hb'
    cases hc
    cases hc'
    refine ⟨h3.trans h3'.symm, h4.trans h4'.symm, fun hs => ?_⟩
    obtain ⟨d, hd, h5, h6⟩ := h2 hs _ hb
    obtain ⟨d', hd', h5', h6'⟩ := h2 hs _ hb'
    cases hd
    cases hd'
    exact ⟨h5.trans h5'.symm, h6.trans h6'.symm⟩

theorem checks_of_fit (same : Bool) (b0 : Band) (l : List (Option Band)) (h : Fit same l)
    (hb : some b0 ∈ l) : scanOk b0 l = true ∧ (same = true → ratesOk b0 l = true) := by
  rw [scanOk_iff, ratesOk_iff]
  refine ⟨fun x hx => ?_, fun hs x hx => ?_⟩
  · obtain ⟨b, rfl⟩ := h.1 x hx
    exact ⟨b, rfl, (h.2 b b0 hx hb).1, (h.2 b b0 hx hb).2.1⟩
  · obtain ⟨b, rfl⟩ := h.1 x hx
    exact ⟨b, rfl, (h.2 b b0 hx hb).2.2 hs⟩

theorem fit_subset (same : Bool) (l l' : List (Option Band)) (h : Fit same l)
    (hs : ∀ x ∈ l', x ∈ l) : Fit same l' :=
  ⟨fun x hx => h.1 x (hs x hx), fun b b' hb hb' => h.2 b b' (hs _ hb) (hs _ hb')⟩

/-- An accepted assignment stores the list, which fits, and reports its properties. -/
theorem setBands_ok (st st' : MB) (l : List (Option Band)) (h : setBands st l = (st', none)) :
    st'.same = st.same ∧ st'.bands = l ∧ Fit st.same l ∧ Reports st' := by
  match l, h with
  | [], h =>
    cases h
    exact ⟨rfl, rfl, ⟨by simp, by simp⟩, by simp [Reports]⟩
  | none :: t, h => simp [setBands] at h
  | some b0 :: t, h =>
    simp only [setBands] at h
    split_ifs at h with h1 h2 h3
    · cases h
      refine ⟨rfl, rfl, fit_of_checks _ b0 _ h1 fun _ => h3, fun b hb => ?_⟩
      simp only [List.head?_cons, Option.some.injEq] at hb
      subst hb
      simp [h2]
    · cases (Prod.ext_iff.mp h).2
    · cases h
      refine ⟨rfl, rfl, fit_of_checks _ b0 _ h1 fun h => absurd h h2, fun b hb => ?_⟩
      simp only [List.head?_cons, Option.some.injEq] at hb
      subst hb
      simp [h2]
    · cases (Prod.ext_iff.mp h).2

/-- A rejected assignment keeps the bands. -/
theorem setBands_error (st st' : MB) (l : List (Option Band)) (e : Err)
    (h : setBands st l = (st', some e)) : st'.same = st.same ∧ st'.bands = st.bands := by
  match l, h with
  | [], h => cases h
  | none :: t, h => cases h; exact ⟨rfl, rfl⟩
  | some b0 :: t, h =>
    simp only [setBands] at h
    split_ifs at h with h1 h2 h3
    · cases (Prod.ext_iff.mp h).2
    · cases h; exact ⟨rfl, rfl⟩
    · cases (Prod.ext_iff.mp h).2
    · cases h; exact ⟨rfl, rfl⟩

/-- A rejected assignment whose first element is the present first band changes nothing. -/
theorem setBands_error_front (st st' : MB) (l : List (Option Band)) (e : Err) (hr : Reports st)
    (hne : st.bands ≠ []) (hf : l.head? = st.bands.head?)
    (h : setBands st l = (st', some e)) : st' = st := by
  match l, h, hf with
  | [], h, _ => cases h
  | none :: t, h, _ => cases h; rfl
  | some b0 :: t, h, hf =>
    have hrep := hr b0 (by rw [← hf]; rfl)
    obtain ⟨same, bands, rate, channels⟩ := st
    simp only at hrep
    simp only [setBands] at h
    split_ifs at h with h1 h2 h3
    · cases (Prod.ext_iff.mp h).2
    · cases h
      rw [hrep.1, hrep.2, if_pos h2]
    · cases (Prod.ext_iff.mp h).2
    · cases h
      rw [hrep.1]

theorem setBands_fit (st : MB) (l : List (Option Band)) (h : Fit st.same l) :
    (setBands st l).2 = none := by
  match l, h with
  | [], h => rfl
  | none :: t, h =>
    obtain ⟨b, hb⟩ := h.1 none (by simp)
    cases hb
  | some b0 :: t, h =>
    obtain ⟨h1, h2⟩ := checks_of_fit st.same b0 _ h (by simp)
    simp only [setBands]
    rw [if_pos h1]
    by_cases hs : st.same = true
    · rw [if_pos hs, if_pos (h2 hs)]
    · rw [if_neg hs]

/-- Whether an operation is an assignment of a whole list or an insertion before the present
first band. -/
def TouchesFront (st : MB) : Op → Prop
  | .assign _ => True
  | .add _ i => st.bands ≠ [] ∧ i ≠ -1 ∧ insertPos st.bands.length i = 0
  | .remove _ => False
  | .swap _ => False

theorem order_mem (n : ℕ) (order : List ℤ) (h : orderAccepted n order = true) :
    ∀ i ∈ order, i.toNat < n ∧ (i.toNat : ℤ) = i := by
  unfold orderAccepted at h
  simp only [Bool.and_eq_true, List.all_eq_true, decide_eq_true_eq] at h
  intro i hi
  have := h.1.2 i hi
  omega

theorem swap_subset {α : Type} (l : List α) (d : α) (order : List ℤ)
    (h : orderAccepted l.length order = true) :
    ∀ x ∈ order.map (fun i => l.getD i.toNat d), x ∈ l := by
  intro x hx
  obtain ⟨i, hi, rfl⟩ := List.mem_map.mp hx
  have := (order_mem _ _ h i hi).1
  rw [List.getD_eq_getElem _ _ this]
  exact List.getElem_mem this

/-- What is proved of the result of an operation on `st`. -/
def Good (st : MB) (p : MB × Option Err) : Prop :=
  p.1.same = st.same ∧ Fit st.same p.1.bands ∧ (p.2 ≠ none → p.1.bands = st.bands) ∧
    (p.2 = none → Reports p.1)

theorem good_set (st : MB) (h : Fit st.same st.bands) (l : List (Option Band)) :
    Good st (setBands st l) := by
  unfold Good
  cases he : (setBands st l).2 with
  | none =>
    obtain ⟨h1, h2, h3, h4⟩ := setBands_ok st (setBands st l).1 l (by rw [← he])
    rw [h2]
    exact ⟨h1, h3, fun hx => absurd rfl hx, fun _ => h4⟩
  | some e =>
    obtain ⟨h1, h2⟩ := setBands_error st (setBands st l).1 l e (by rw [← he])
    rw [h2]
    exact ⟨h1, h, fun _ => rfl, fun hx => by cases hx⟩

theorem good_stay (st : MB) (h : Fit st.same st.bands) (e : Err) : Good st (st, some e) :=
  ⟨rfl, h, fun _ => rfl, fun hx => by cases hx⟩

/-- Every operation keeps the bands consistent, and a rejected operation keeps the bands. -/
theorem step_fit (st : MB) (op : Op) (h : Fit st.same st.bands) : Good st (step st op) := by
  cases op with
  | assign l => exact good_set st h l
  | add x i =>
    simp only [step, addBand]
    split_ifs
    · exact good_set st h _
    · exact good_set st h _
    · exact good_set st h _
  | remove i =>
    simp only [step, removeBand]
    split_ifs
    · exact good_stay st h _
    · cases popPos st.bands.length i with
      | none => exact good_stay st h _
      | some j => exact good_set st h _
  | swap o =>
    simp only [step, swapBands]
    split_ifs
    · exact good_set st h _
    · exact good_stay st h _

/-- After every history of assignments, additions, removals and reorderings, rejected ones
included, all bands share channel count and realness, and sampling rate and length unless
the object is multirate. -/
theorem C37_bands_consistent (same : Bool) (l : List (Option Band)) (st : MB)
    (h : create same l = (st, none)) (ops : List Op) :
    Fit same (run st ops).bands := by
  obtain ⟨h1, h2, h3, -⟩ := setBands_ok _ _ _ h
  have h4 : st.same = same := h1
  have : ∀ (ops : List Op) (st : MB), st.same = same → Fit same st.bands →
      Fit same (run st ops).bands := by
    intro ops
    induction ops with
    | nil => intro st _ h; exact h
    | cons op ops ih =>
      intro st hs hf
      have hstep := step_fit st op (by rw [hs]; exact hf)
      unfold Good at hstep
      rw [hs] at hstep
      exact ih _ hstep.1 hstep.2.1
  exact this ops st h4 (by rw [h2]; exact h3)

/-- An operation that is rejected leaves the object as it was, unless it is an assignment
of a whole list or an insertion before the first band. -/
theorem C37_rejected_partial (st : MB) (op : Op) (hf : Fit st.same st.bands) (hr : Reports st)
    (hop : ¬ TouchesFront st op) (e : Err) (he : (step st op).2 = some e) :
    (step st op).1 = st := by
  cases op with
  | assign l => exact absurd trivial hop
  | add x i =>
    simp only [step, addBand] at he ⊢
    split_ifs at he ⊢ with h1 h2
    · -- first band: only an object that is not a signal is rejected
      cases x with
      | none => rfl
      | some b =>
        rw [setBands_fit] at he
        · cases he
        · refine ⟨by simp, fun c c' hc hc' => ?_⟩
          simp only [List.mem_singleton, Option.some.injEq] at hc hc'
          subst hc
          subst hc'
          exact ⟨rfl, rfl, fun _ => ⟨rfl, rfl⟩⟩
    · refine setBands_error_front st _ _ e hr h1 ?_ (Prod.ext rfl he)
      cases hb : st.bands with
      | nil => exact absurd hb h1
      | cons a t => rfl
    · refine setBands_error_front st _ _ e hr h1 ?_ (Prod.ext rfl he)
      have hpos : insertPos st.bands.length i ≠ 0 := fun h0 => hop ⟨h1, h2, h0⟩
      cases hb : st.bands with
      | nil => exact absurd hb h1
      | cons a t =>
        rw [hb] at hpos
        obtain ⟨k, hk⟩ := Nat.exists_eq_succ_of_ne_zero hpos
        rw [hk]
        rfl
  | remove i =>
    simp only [step, removeBand] at he ⊢
    split_ifs at he ⊢ with h1
    · rfl
    · cases hp : popPos st.bands.length i with
      | none => rfl
      | some j =>
        rw [hp] at he
        simp only at he
        rw [setBands_fit] at he
        · cases he
        · exact fit_subset _ _ _ hf fun x hx => List.mem_of_mem_eraseIdx hx
  | swap o =>
    simp only [step, swapBands] at he ⊢
    split_ifs at he ⊢ with h1
    · rw [setBands_fit] at he
      · cases he
      · exact fit_subset _ _ _ hf (swap_subset _ _ _ h1)
    · rfl

/-- No rejected operation of the history is an assignment or an insertion at the front. -/
def Quiet : MB → List Op → Prop
  | _, [] => True
  | st, op :: ops => ((step st op).2 = none ∨ ¬ TouchesFront st op) ∧ Quiet (step st op).1 ops

/-- The reported channel count and sampling rate are those of the bands, for all histories
in which no assignment or insertion at the front was rejected. -/
theorem C37_reports_partial (same : Bool) (l : List (Option Band)) (st : MB)
    (h : create same l = (st, none)) (ops : List Op) (hq : Quiet st ops) :
    Reports (run st ops) := by
  obtain ⟨h1, h2, h3, h4⟩ := setBands_ok _ _ _ h
  have h1' : st.same = same := h1
  have : ∀ (ops : List Op) (st : MB), Fit st.same st.bands → Reports st → Quiet st ops →
      Reports (run st ops) := by
    intro ops
    induction ops with
    | nil => intro st _ h _; exact h
    | cons op ops ih =>
      intro st hf hr hq
      have hstep := step_fit st op hf
      refine ih _ (by rw [hstep.1]; exact hstep.2.1) ?_ hq.2
      cases he : (step st op).2 with
      | none => exact hstep.2.2.2 he
      | some e =>
        rcases hq.1 with hn | hn
        · rw [hn] at he; cases he
        · show Reports (step st op).1
          rw [C37_rejected_partial st op hf hr hn e he]
          exact hr
  exact this ops st (by rw [h1', h2]; exact h3) h4 hq

/-- After every operation that is accepted the reports are right, whatever happened
before. -/
theorem C37_reports_after_success (same : Bool) (l : List (Option Band)) (st : MB)
    (h : create same l = (st, none)) (ops : List Op) (op : Op)
    (hok : (step (run st ops) op).2 = none) : Reports (run st (ops ++ [op])) := by
  have hs : ∀ (ops : List Op) (st : MB), st.same = same → Fit same st.bands →
      (run st ops).same = same := by
    intro ops
    induction ops with
    | nil => intro st h _; exact h
    | cons op ops ih =>
      intro st h hf
      have hstep := step_fit st op (by rw [h]; exact hf)
      unfold Good at hstep
      rw [h] at hstep
      exact ih _ hstep.1 hstep.2.1
  obtain ⟨h1, h2, h3, h4⟩ := setBands_ok _ _ _ h
  have hf := C37_bands_consistent same l st h ops
  have h5 := hs ops st h1 (by rw [h2]; exact h3)
  have := (step_fit (run st ops) op (by rw [h5]; exact hf)).2.2.2 hok
  unfold run
  rw [List.foldl_append]
  exact this

/-- Reordering is accepted exactly for permutations of the indices (of two or more bands, or
of none), and the new bands are a rearrangement of the old ones. -/
theorem C37_swap_is_permutation (st st' : MB) (order : List ℤ)
    (h : swapBands st order = (st', none)) :
    order.Perm ((List.range st.bands.length).map fun k : ℕ => (k : ℤ)) ∧
    st'.bands.Perm st.bands := by
  unfold swapBands at h
  split_ifs at h with ho
  · obtain ⟨-, hb, -, -⟩ := setBands_ok _ _ _ h
    have hmem := order_mem _ _ ho
    have ho' := ho
    unfold orderAccepted at ho'
    simp only [Bool.and_eq_true, decide_eq_true_eq, beq_iff_eq] at ho'
    have hlen := ho'.1.1.2
    have hnd := ho'.2
    have hsub : order ⊆ (List.range st.bands.length).map fun k : ℕ => (k : ℤ) := by
      intro i hi
      refine List.mem_map.mpr ⟨i.toNat, List.mem_range.mpr (hmem i hi).1, (hmem i hi).2⟩
    have hp : order.Perm ((List.range st.bands.length).map fun k : ℕ => (k : ℤ)) :=
      List.Subperm.perm_of_length_le (List.subperm_of_subset hnd hsub) (by simp [hlen])
    refine ⟨hp, ?_⟩
    rw [hb]
    refine (hp.map _).trans ?_
    rw [List.map_map]
    have : (List.range st.bands.length).map
        ((fun i : ℤ => st.bands.getD i.toNat none) ∘ fun k : ℕ => (k : ℤ)) = st.bands := by
      refine List.ext_getElem (by simp) fun k h1 h2 => ?_
      simp only [List.getElem_map, Function.comp, List.getElem_range, Int.toNat_natCast]
      exact List.getD_eq_getElem _ _ h2
    rw [this]
  · cases (Prod.ext_iff.mp h).2

/-- The place `k` of a new element among `n` others asked for with the index `i`: `-1` is the
end, other negative indices count from the end, and places outside are moved to the nearest
end. -/
def PlacedAt (n : ℕ) (i : ℤ) (k : ℕ) : Prop :=
  (i = -1 → k = n) ∧ (0 ≤ i → (k : ℤ) = min i n) ∧ (i < -1 → (k : ℤ) = max 0 (n + i))

private theorem insertPos_placed (n : ℕ) (i : ℤ) (hi : i ≠ -1) : PlacedAt n i (insertPos n i) := by
  unfold insertPos PlacedAt
  split_ifs with h <;> refine ⟨by omega, by omega, by omega⟩

/-- An accepted addition puts the band at the python position and keeps the others in
order; an accepted removal takes out exactly one. -/
theorem C37_add_remove (st st' : MB) (x : Option Band) (i : ℤ) :
    (addBand st x i = (st', none) → ∃ k ≤ st.bands.length, st'.bands[k]? = some x ∧
      st'.bands.eraseIdx k = st.bands ∧ PlacedAt st.bands.length i k) ∧
    (removeBand st i = (st', none) → ∃ k < st.bands.length,
      st'.bands = st.bands.eraseIdx k ∧ ((k : ℤ) = i ∨ (k : ℤ) = i + st.bands.length)) := by
  constructor
  · intro h
    unfold addBand at h
    split_ifs at h with h1 h2
    · obtain ⟨-, hb, -, -⟩ := setBands_ok _ _ _ h
      refine ⟨0, by simp, by simp [hb], by simp [hb, h1], ?_⟩
      rw [h1]
      exact ⟨fun _ => rfl, fun h => by simp [h], fun h => by simp; omega⟩
    · obtain ⟨-, hb, -, -⟩ := setBands_ok _ _ _ h
      refine ⟨st.bands.length, le_rfl, by simp [hb], ?_, ⟨by omega, by omega, by omega⟩⟩
      rw [hb, List.eraseIdx_append_of_length_le (le_refl _)]
      simp
    · obtain ⟨-, hb, -, -⟩ := setBands_ok _ _ _ h
      have hle : insertPos st.bands.length i ≤ st.bands.length := by
        unfold insertPos
        split_ifs <;> omega
      refine ⟨insertPos st.bands.length i, hle, ?_, ?_, insertPos_placed _ _ h2⟩
      · rw [hb, List.getElem?_insertIdx_self]
        simp [hle]
      · rw [hb, List.eraseIdx_insertIdx_self]
  · intro h
    unfold removeBand at h
    split_ifs at h with h1
    · cases (Prod.ext_iff.mp h).2
    · cases hp : popPos st.bands.length i with
      | none => rw [hp] at h; cases (Prod.ext_iff.mp h).2
      | some j =>
        rw [hp] at h
        obtain ⟨-, hb, -, -⟩ := setBands_ok _ _ _ h
        unfold popPos at hp
        simp only at hp
        split_ifs at hp with h2 h3 h3
        · cases hp
          exact ⟨_, by omega, hb, by omega⟩
        · cases hp
          exact ⟨_, by omega, hb, by omega⟩

/-- A rejected insertion before the first band changes the reported number of channels. -/
theorem C37_rejected_front_wrong :
    ∃ (st : MB) (b : Band), create true [some ⟨0, 48000, 10, 1, false⟩] = (st, none) ∧
      (addBand st (some b) 0).2 = some .assertionError ∧
      (addBand st (some b) 0).1.bands = st.bands ∧
      (addBand st (some b) 0).1.channels = some 2 ∧ st.channels = some 1 :=
  ⟨_, ⟨1, 48000, 10, 2, false⟩, rfl, by decide, by decide, by decide, by decide⟩

/-- Also the sampling rate can be changed by a rejected insertion. -/
theorem C37_rejected_rate_wrong :
    ∃ (st : MB) (b : Band), create true [some ⟨0, 48000, 10, 1, false⟩] = (st, none) ∧
      (addBand st (some b) 0).2 = some .assertionError ∧
      (addBand st (some b) 0).1.bands = st.bands ∧
      (addBand st (some b) 0).1.rate = some (.one 44100) ∧ st.rate = some (.one 48000) :=
  ⟨_, ⟨1, 44100, 10, 1, false⟩, rfl, by decide, by decide, by decide, by decide⟩

/-- The flag can be switched afterwards without any check: an object that claims one
sampling rate with bands of different sampling rates. -/
theorem C37_flag_unchecked :
    ∃ st : MB, create false [some ⟨0, 48000, 10, 1, false⟩, some ⟨1, 24000, 5, 1, false⟩] =
      (st, none) ∧ ¬ Fit (setSame st true).same (setSame st true).bands := by
  refine ⟨_, rfl, fun h => ?_⟩
  have := (h.2 ⟨0, 48000, 10, 1, false⟩ ⟨1, 24000, 5, 1, false⟩ (by simp [setSame])
    (by simp [setSame])).2.2 rfl
  exact absurd this.1 (by decide)

/-! ### Filter banks -/

/-- All elements are filters, with one sampling rate unless the bank is multirate. -/
def FFit (same : Bool) (l : List FItem) : Prop :=
  (∀ f ∈ l, ∃ i r, f = .filter i r) ∧
  (same = true → ∀ f ∈ l, ∀ g ∈ l, f.rate? = g.rate?)

/-- The reported sampling rate is that of the filters. -/
def FReports (st : FB) : Prop :=
  ∀ i r, st.filters.head? = some (.filter i r) →
    (st.same = true → st.rate = some (.one r)) ∧
    (st.same = false → ∃ rs, st.rate = some (.many rs) ∧ rs.map some = st.filters.map FItem.rate?)

theorem filtersOk_iff (same : Bool) (r : ℕ) (l : List FItem) :
    filtersOk same r l = true ↔ ∀ f ∈ l, f.isFilter = true ∧ (same = true → f.rate? = some r) := by
  unfold filtersOk
  rw [List.all_eq_true]
  refine forall_congr' fun f => forall_congr' fun _ => ?_
  cases same <;> simp

theorem isFilter_iff (f : FItem) : f.isFilter = true ↔ ∃ i r, f = .filter i r := by
  cases f <;> simp [FItem.isFilter]

theorem mapM_rates (l : List FItem) (rs : List ℕ) (h : l.mapM FItem.rate? = some rs) :
    rs.map some = l.map FItem.rate? := by
  induction l generalizing rs with
  | nil =>
    simp at h
    subst h
    rfl
  | cons f l ih =>
    rw [List.mapM_cons] at h
    cases hf : f.rate? with
    | none => rw [hf] at h; cases h
    | some r =>
      rw [hf] at h
      cases hl : l.mapM FItem.rate? with
      | none => rw [hl] at h; cases h
      | some rs' =>
        rw [hl] at h
        cases h
        rw [List.map_cons, List.map_cons, hf, ih rs' hl]

theorem mapM_filters (l : List FItem) (h : ∀ f ∈ l, f.isFilter = true) :
    ∃ rs, l.mapM FItem.rate? = some rs := by
  induction l with
  | nil => exact ⟨[], rfl⟩
  | cons f l ih =>
    obtain ⟨rs, hrs⟩ := ih fun g hg => h g (by simp [hg])
    obtain ⟨i, r, rfl⟩ := (isFilter_iff f).mp (h f (by simp))
    exact ⟨r :: rs, by rw [List.mapM_cons, hrs]; rfl⟩

theorem setFilters_ok (st st' : FB) (l : List FItem) (h : setFilters st l = (st', none)) :
    st'.same = st.same ∧ st'.filters = l ∧ FFit st.same l ∧ FReports st' := by
  cases l with
  | nil =>
    cases h
    exact ⟨rfl, rfl, ⟨by simp, by simp⟩, by simp [FReports]⟩
  | cons f0 t =>
    simp only [setFilters] at h
    by_cases hs : st.same = true
    · rw [if_pos hs] at h
      cases hr : f0.rate? with
      | none => rw [hr] at h; cases (Prod.ext_iff.mp h).2
      | some r =>
        rw [hr] at h
        simp only at h
        split_ifs at h with hok
        · cases h
          rw [filtersOk_iff] at hok
          refine ⟨rfl, rfl, ⟨fun f hf => (isFilter_iff f).mp (hok f hf).1, fun _ f hf g hg => ?_⟩,
            fun i q hq => ?_⟩
          · rw [(hok f hf).2 rfl, (hok g hg).2 rfl]
          · simp only [List.head?_cons, Option.some.injEq] at hq
            rw [hq] at hr
            cases hr
            exact ⟨fun _ => rfl, fun h => by simp [hs] at h⟩
        · cases (Prod.ext_iff.mp h).2
    · rw [if_neg hs] at h
      cases hr : (f0 :: t).mapM FItem.rate? with
      | none => rw [hr] at h; cases (Prod.ext_iff.mp h).2
      | some rs =>
        rw [hr] at h
        simp only at h
        split_ifs at h with hok
        · cases h
          rw [filtersOk_iff] at hok
          refine ⟨rfl, rfl, ⟨fun f hf => (isFilter_iff f).mp (hok f hf).1, fun h => absurd h hs⟩,
            fun i q hq => ⟨fun h => absurd h hs, fun _ => ⟨rs, rfl, mapM_rates _ _ hr⟩⟩⟩
        · cases (Prod.ext_iff.mp h).2

theorem setFilters_error (st st' : FB) (l : List FItem) (e : Err)
    (h : setFilters st l = (st', some e)) : st'.same = st.same ∧ st'.filters = st.filters := by
  cases l with
  | nil => cases (Prod.ext_iff.mp h).2
  | cons f0 t =>
    simp only [setFilters] at h
    by_cases hs : st.same = true
    · rw [if_pos hs] at h
      cases hr : f0.rate? with
      | none => rw [hr] at h; cases h; exact ⟨rfl, rfl⟩
      | some r =>
        rw [hr] at h
        simp only at h
        split_ifs at h with hok
        · cases (Prod.ext_iff.mp h).2
        · cases h; exact ⟨rfl, rfl⟩
    · rw [if_neg hs] at h
      cases hr : (f0 :: t).mapM FItem.rate? with
      | none => rw [hr] at h; cases h; exact ⟨rfl, rfl⟩
      | some rs =>
        rw [hr] at h
        simp only at h
        split_ifs at h with hok
        · cases (Prod.ext_iff.mp h).2
        · cases h; exact ⟨rfl, rfl⟩

theorem setFilters_fit (st : FB) (l : List FItem) (h : FFit st.same l) :
    (setFilters st l).2 = none := by
  cases l with
  | nil => rfl
  | cons f0 t =>
    simp only [setFilters]
    by_cases hs : st.same = true
    · rw [if_pos hs]
      obtain ⟨i, r, rfl⟩ := h.1 f0 (by simp)
      have : filtersOk true r (FItem.filter i r :: t) = true := by
        rw [filtersOk_iff]
        intro f hf
        refine ⟨(isFilter_iff f).mpr (h.1 f hf), fun _ => ?_⟩
        exact h.2 hs f hf (.filter i r) (by simp)
      simp only [FItem.rate?]
      rw [if_pos this]
    · rw [if_neg hs]
      have hall : ∀ f ∈ f0 :: t, f.isFilter = true := fun f hf => (isFilter_iff f).mpr (h.1 f hf)
      obtain ⟨rs, hrs⟩ := mapM_filters _ hall
      rw [hrs]
      have : filtersOk false 0 (f0 :: t) = true := by
        rw [filtersOk_iff]
        intro f hf
        exact ⟨hall f hf, fun h => by cases h⟩
      simp only
      rw [if_pos this]

theorem ffit_subset (same : Bool) (l l' : List FItem) (h : FFit same l)
    (hs : ∀ x ∈ l', x ∈ l) : FFit same l' :=
  ⟨fun x hx => h.1 x (hs x hx), fun h1 f hf g hg => h.2 h1 f (hs _ hf) g (hs _ hg)⟩

/-- What is proved of the result of an operation on `st`. -/
def FGood (st : FB) (p : FB × Option Err) : Prop :=
  p.1.same = st.same ∧ FFit st.same p.1.filters ∧ (p.2 = none → FReports p.1)

theorem fgood_set (st : FB) (h : FFit st.same st.filters) (s : FB) (l : List FItem)
    (hs : s.same = st.same) (hsf : s.filters = st.filters) : FGood st (setFilters s l) := by
  unfold FGood
  cases he : (setFilters s l).2 with
  | none =>
    obtain ⟨h1, h2, h3, h4⟩ := setFilters_ok s (setFilters s l).1 l (by rw [← he])
    rw [h2]
    exact ⟨h1.trans hs, by rw [← hs]; exact h3, fun _ => h4⟩
  | some e =>
    obtain ⟨h1, h2⟩ := setFilters_error s (setFilters s l).1 l e (by rw [← he])
    rw [h2, hsf]
    exact ⟨h1.trans hs, h, fun hx => by cases hx⟩

theorem fgood_stay (st : FB) (h : FFit st.same st.filters) (e : Err) : FGood st (st, some e) :=
  ⟨rfl, h, fun hx => by cases hx⟩

theorem fstep_fit (st : FB) (op : FOp) (h : FFit st.same st.filters) :
    FGood st (fstep st op) := by
  cases op with
  | add f i =>
    simp only [fstep, addFilter]
    by_cases h1 : st.filters = []
    · rw [if_pos h1]
      cases f.rate? with
      | none => exact fgood_stay st h _
      | some r => exact fgood_set st h _ _ rfl rfl
    · rw [if_neg h1]
      by_cases h2 : st.same = true
      · rw [if_pos h2]
        cases f.rate? with
        | none => exact fgood_stay st h _
        | some r =>
          simp only
          by_cases h3 : st.rate = some (Rates.one r)
          · rw [if_pos h3]
            exact fgood_set st h _ _ rfl rfl
          · rw [if_neg h3]
            exact fgood_stay st h _
      · rw [if_neg h2]
        exact fgood_set st h _ _ rfl rfl
  | remove i =>
    simp only [fstep, removeFilter]
    split_ifs
    · exact fgood_stay st h _
    · exact fgood_set st h _ _ rfl rfl
    · exact fgood_stay st h _
    · exact fgood_set st h _ _ rfl rfl
    · exact fgood_stay st h _
  | swap o =>
    simp only [fstep, swapFilters]
    split_ifs
    · exact fgood_set st h _ _ rfl rfl
    · exact fgood_stay st h _

/-- After every history of additions, removals and reorderings, rejected ones included, a
filter bank only holds filters, with one sampling rate unless it is multirate. -/
theorem C37_filters_consistent (same : Bool) (l : List FItem) (st : FB)
    (h : fcreate same l = (st, none)) (ops : List FOp) : FFit same (frun st ops).filters := by
  obtain ⟨h1, h2, h3, -⟩ := setFilters_ok _ _ _ h
  have : ∀ (ops : List FOp) (st : FB), st.same = same → FFit same st.filters →
      FFit same (frun st ops).filters := by
    intro ops
    induction ops with
    | nil => intro st _ h; exact h
    | cons op ops ih =>
      intro st hs hf
      have hstep := fstep_fit st op (by rw [hs]; exact hf)
      unfold FGood at hstep
      rw [hs] at hstep
      exact ih _ hstep.1 hstep.2.1
  exact this ops st h1 (by rw [h2]; exact h3)

/-- In a filter bank with a single sampling rate that is not empty, every rejected operation
leaves the bank as it was. -/
theorem C37_filter_rejected_partial (st : FB) (op : FOp) (hsame : st.same = true)
    (hne : st.filters ≠ []) (hf : FFit st.same st.filters) (hr : FReports st) (e : Err)
    (he : (fstep st op).2 = some e) : (fstep st op).1 = st := by
  cases op with
  | add f i =>
    simp only [fstep, addFilter] at he ⊢
    rw [if_neg hne, if_pos hsame] at he ⊢
    cases hfr : f.rate? with
    | none => rfl
    | some r =>
      rw [hfr] at he
      simp only at he ⊢
      by_cases h3 : st.rate = some (Rates.one r)
      · rw [if_pos h3] at he ⊢
        -- the rate written by the setter is the one already there
        have key : ∀ l : List FItem, (∀ g ∈ l, g ∈ st.filters ∨ g = f) →
            (setFilters st l).2 = some e → (setFilters st l).1 = st := by
          intro l hl he
          cases l with
          | nil => cases he
          | cons g t =>
            have hg : g.rate? = some r := by
              rcases hl g (by simp) with h | h
              · cases hb : st.filters with
                | nil => exact absurd hb hne
                | cons a u =>
                  obtain ⟨i', q, ha⟩ := hf.1 a (by rw [hb]; simp)
                  have hq := (hr i' q (by rw [hb, ha]; rfl)).1 hsame
                  have h5 := hf.2 hsame g h a (by rw [hb]; simp)
                  rw [h5, ha]
                  rw [h3] at hq
                  cases hq
                  rfl
              · rw [h]; exact hfr
            simp only [setFilters] at he ⊢
            rw [if_pos hsame, hg] at he ⊢
            simp only at he ⊢
            split_ifs at he ⊢ with hok
            obtain ⟨same, filters, rate⟩ := st
            simp only at h3
            rw [h3]
        refine key _ ?_ he
        intro g hg
        split_ifs at hg with h4
        · rw [List.mem_append, List.mem_singleton] at hg
          exact hg
        · have := (List.mem_insertIdx (by
            unfold insertPos
            split_ifs <;> omega)).mp hg
          tauto
      · rw [if_neg h3]
  | remove i =>
    simp only [fstep, removeFilter] at he ⊢
    have h5 : ∀ k, FFit st.same (st.filters.eraseIdx k) := fun k =>
      ffit_subset _ _ _ hf fun x hx => List.mem_of_mem_eraseIdx hx
    split_ifs at he ⊢
    · rfl
    · rw [setFilters_fit _ _ (h5 _)] at he; cases he
    · rfl
    · rw [setFilters_fit _ _ (h5 _)] at he; cases he
    · rfl
  | swap o =>
    simp only [fstep, swapFilters] at he ⊢
    split_ifs at he ⊢ with h1
    · rw [setFilters_fit _ _ (ffit_subset _ _ _ hf (swap_subset _ _ _ h1))] at he
      cases he
    · rfl

/-- Filter banks: an accepted addition puts the filter at the python position and keeps the
others in order; an accepted removal takes out exactly the filter at the index, or the last one
for `-1`; an accepted permutation puts filter `order[k]` at place `k`. -/
theorem C37_filter_moves (st st' : FB) (x : FItem) (i : ℤ) (order : List ℤ) :
    (addFilter st x i = (st', none) → ∃ k ≤ st.filters.length, st'.filters[k]? = some x ∧
      st'.filters.eraseIdx k = st.filters ∧ PlacedAt st.filters.length i k) ∧
    (removeFilter st i = (st', none) → ∃ k < st.filters.length,
      st'.filters = st.filters.eraseIdx k ∧
        ((k : ℤ) = i ∨ (i = -1 ∧ k + 1 = st.filters.length))) ∧
    (swapFilters st order = (st', none) → st'.filters.length = st.filters.length ∧
      ∀ k < order.length, st'.filters[k]? = st.filters[(order.getD k 0).toNat]?) := by
  refine ⟨fun h => ?_, fun h => ?_, fun h => ?_⟩
  · unfold addFilter at h
    by_cases h1 : st.filters = []
    · rw [if_pos h1] at h
      cases hr : x.rate? with
      | none => rw [hr] at h; cases (Prod.ext_iff.mp h).2
      | some r =>
        rw [hr] at h
        obtain ⟨-, hb, -, -⟩ := setFilters_ok _ _ _ h
        refine ⟨0, by simp, by simp [hb], by simp [hb, h1], ?_⟩
        rw [h1]
        exact ⟨fun _ => rfl, fun h => by simp [h], fun h => by simp; omega⟩
    · rw [if_neg h1] at h
      dsimp only at h
      have hset : st'.filters = if i = -1 then st.filters ++ [x]
          else st.filters.insertIdx (insertPos st.filters.length i) x := by
        by_cases h2 : st.same = true
        · rw [if_pos h2] at h
          cases hr : x.rate? with
          | none => rw [hr] at h; cases (Prod.ext_iff.mp h).2
          | some r =>
            rw [hr] at h
            dsimp only at h
            by_cases h3 : st.rate = some (.one r)
            · rw [if_pos h3] at h
              exact (setFilters_ok _ _ _ h).2.1
            · rw [if_neg h3] at h
              cases (Prod.ext_iff.mp h).2
        · rw [if_neg h2] at h
          exact (setFilters_ok _ _ _ h).2.1
      by_cases h2 : i = -1
      · rw [if_pos h2] at hset
        refine ⟨st.filters.length, le_rfl, by simp [hset], ?_, ⟨by omega, by omega, by omega⟩⟩
        rw [hset, List.eraseIdx_append_of_length_le (le_refl _)]
        simp
      · rw [if_neg h2] at hset
        have hle : insertPos st.filters.length i ≤ st.filters.length := by
          unfold insertPos
          split_ifs <;> omega
        refine ⟨insertPos st.filters.length i, hle, ?_, ?_, insertPos_placed _ _ h2⟩
        · rw [hset, List.getElem?_insertIdx_self]
          simp [hle]
        · rw [hset, List.eraseIdx_insertIdx_self]
  · unfold removeFilter at h
    by_cases h1 : st.filters = []
    · rw [if_pos h1] at h
      cases (Prod.ext_iff.mp h).2
    · rw [if_neg h1] at h
      dsimp only at h
      by_cases h2 : i = -1
      · rw [if_pos h2] at h
        have hpos := List.length_pos_of_ne_nil h1
        rw [if_pos (by omega)] at h
        obtain ⟨-, hb, -, -⟩ := setFilters_ok _ _ _ h
        exact ⟨_, by omega, hb, Or.inr ⟨h2, by omega⟩⟩
      · rw [if_neg h2] at h
        by_cases h3 : 0 ≤ i ∧ i < st.filters.length
        · rw [if_pos h3] at h
          obtain ⟨-, hb, -, -⟩ := setFilters_ok _ _ _ h
          exact ⟨_, by omega, hb, Or.inl (by omega)⟩
        · rw [if_neg h3] at h
          cases (Prod.ext_iff.mp h).2
  · unfold swapFilters at h
    by_cases h1 : orderAccepted st.filters.length order = true
    · rw [if_pos h1] at h
      obtain ⟨-, hb, -, -⟩ := setFilters_ok _ _ _ h
      unfold orderAccepted at h1
      simp only [Bool.and_eq_true, List.all_eq_true, decide_eq_true_eq, beq_iff_eq] at h1
      refine ⟨by rw [hb, List.length_map, h1.1.1.2], fun k hk => ?_⟩
      have hm := h1.1.2 _ (List.getElem_mem hk)
      rw [hb, List.getElem?_map, List.getElem?_eq_getElem hk, List.getD_eq_getElem _ _ hk,
        Option.map_some, List.getD_eq_getElem _ _ (by omega), List.getElem?_eq_getElem (by omega)]
    · rw [if_neg h1] at h
      cases (Prod.ext_iff.mp h).2

example : (addFilter ⟨true, [.filter 0 8, .filter 1 8, .filter 2 8], some (.one 8)⟩ (.filter 3 8)
    (-2)).1.filters = [.filter 0 8, .filter 3 8, .filter 1 8, .filter 2 8] := by decide

/-- In a multirate bank a rejected addition changes the reported sampling rates. -/
theorem C37_filter_rejected_wrong :
    ∃ st : FB, fcreate false [.filter 0 48000] = (st, none) ∧
      (addFilter st (.foreign (some 8000)) (-1)).2 = some .assertionError ∧
      (addFilter st (.foreign (some 8000)) (-1)).1.filters = st.filters ∧
      (addFilter st (.foreign (some 8000)) (-1)).1.rate = some (.many [48000, 8000]) :=
  ⟨_, rfl, by decide, by decide, by decide⟩

/-- Concrete case: a bank of two bands, an insertion in the middle that is rejected, a
reordering and a removal. -/
example : create true [some ⟨0, 48000, 10, 1, false⟩, some ⟨1, 48000, 10, 1, false⟩] =
      (⟨true, [some ⟨0, 48000, 10, 1, false⟩, some ⟨1, 48000, 10, 1, false⟩],
        some (.one 48000), some 1⟩, none) ∧
    Quiet ⟨true, [some ⟨0, 48000, 10, 1, false⟩, some ⟨1, 48000, 10, 1, false⟩],
        some (.one 48000), some 1⟩
      [.add (some ⟨2, 48000, 10, 2, false⟩) 1, .swap [1, 0], .remove 0] := by
  refine ⟨rfl, Or.inr ?_, Or.inl rfl, Or.inl rfl, trivial⟩
  rintro ⟨-, -, h⟩
  exact absurd h (by decide)

end Verif.Bands
