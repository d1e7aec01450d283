import Verif.Model.ReverbStart
import Mathlib.Tactic.Linarith
import Mathlib.Tactic.Push
import Mathlib.Algebra.Order.Floor.Ring

/-!
# C148: reverberation times of several channels and the argument `ir_start`
-/

namespace Verif.C148

open Verif.ReverbStart

variable {T R : Type}

/-! ## Specification -/

/-- Starts for `C` channels: none, a common one, a list or an array with one for each channel. -/
def ForChannels (C : ℕ) : Arg → Prop
  | .none => True
  | .int _ => True
  | .seq (some (.one l)) => l.length = C
  | .array (.one l) => l.length = C
  | _ => False

/-- Starts for `B` bands of `C` channels: also a matrix of this shape. -/
def ForBands (B C : ℕ) : Arg → Prop
  | .seq (some (.two r c _)) => r = B ∧ c = C
  | .array (.two r c _) => r = B ∧ c = C
  | a => ForChannels C a

/-- The values of the channels in their order, or the first exception. -/
def each (estimate : T → Except Err R) (chs : List T) : Except Err (List R) := chs.mapM estimate

/-- A result with a label. -/
def labelled {α β : Type} (f : α → β) : Except Err α → Except Err β
  | .ok v => .ok (f v)
  | .error e => .error e

/-! ## Lemmas -/

theorem zip_mapM (estimate : T → Except Err R) : ∀ (chs : List T) (st : List (Option ℤ)),
    st.length = chs.length →
    ((chs.zip st).mapM fun p => reverb estimate p.1 p.2) = chs.mapM estimate
  | [], _, _ => by simp
  | c :: chs, [], h => by simp at h
  | c :: chs, s :: st, h => by
    rw [List.zip_cons_cons, List.mapM_cons, List.mapM_cons, zip_mapM estimate chs st (by simpa using h)]
    rfl

theorem zipIdx_mapM {α β : Type} (G : α × ℕ → Except Err β) (F : α → Except Err β) :
    ∀ (l : List α) (n : ℕ), (∀ p ∈ l.zipIdx n, G p = F p.1) → (l.zipIdx n).mapM G = l.mapM F
  | [], n, _ => by simp
  | a :: l, n, h => by
    rw [List.zipIdx_cons, List.mapM_cons, List.mapM_cons, h (a, n) (by simp),
      zipIdx_mapM G F l (n + 1) fun p hp => h p (by rw [List.zipIdx_cons]; exact List.mem_cons_of_mem _ hp)]

theorem check_ok (C : ℕ) (a : Arg) (h : ForChannels C a) :
    ∃ st, checkIr C a = .ok st ∧ st.length = C := by
  match a, h with
  | .none, _ => exact ⟨_, rfl, by simp⟩
  | .int k, _ => exact ⟨_, rfl, by simp⟩
  | .seq (some (.one l)), h => exact ⟨_, if_pos h, by rw [List.length_map]; exact h⟩
  | .array (.one l), h => exact ⟨_, if_pos h, by rw [List.length_map]; exact h⟩

theorem check_error (C : ℕ) (a : Arg) (h : ¬ ForChannels C a) :
    checkIr C a = .error .assertionError ∨ checkIr C a = .error .valueError := by
  match a, h with
  | .none, h => exact absurd trivial h
  | .int k, h => exact absurd trivial h
  | .seq none, _ => exact Or.inr rfl
  | .seq (some (.one l)), h => exact Or.inl (if_neg h)
  | .seq (some (.zero _)), _ => exact Or.inl rfl
  | .seq (some (.two _ _ _)), _ => exact Or.inl rfl
  | .seq (some .more), _ => exact Or.inl rfl
  | .array (.one l), h => exact Or.inl (if_neg h)
  | .array (.zero _), _ => exact Or.inl rfl
  | .array (.two _ _ _), _ => exact Or.inl rfl
  | .array .more, _ => exact Or.inl rfl
  | .other, _ => exact Or.inl rfl

theorem reverbIr_ok (estimate : T → Except Err R) (chs : List T) (a : Arg)
    (h : ForChannels chs.length a) : reverbIr estimate chs a = each estimate chs := by
  obtain ⟨st, h1, h2⟩ := check_ok _ a h
  unfold reverbIr
  rw [h1]
  exact zip_mapM estimate chs st h2

theorem reverbIr_error (estimate : T → Except Err R) (chs : List T) (a : Arg)
    (h : ¬ ForChannels chs.length a) : ∃ e, reverbIr estimate chs a = .error e ∧
      (e = .assertionError ∨ e = .valueError) := by
  unfold reverbIr
  rcases check_error _ a h with h | h <;> rw [h]
  · exact ⟨_, rfl, Or.inl rfl⟩
  · exact ⟨_, rfl, Or.inr rfl⟩

/-! ## Impulse responses -/

/-- With valid starts every channel is estimated on its own, in order; invalid ones are refused
before anything is computed.  Other objects are refused. -/
theorem C148_response (estimate : T → Except Err R) (chs : List T) (a : Arg) :
    (ForChannels chs.length a →
      reverbTime estimate (.ir chs) a = labelled .ir (each estimate chs)) ∧
    (¬ ForChannels chs.length a → ∃ e, reverbTime estimate (.ir chs) a = .error e ∧
      (e = .assertionError ∨ e = .valueError)) ∧
    reverbTime estimate .other a = .error .typeError := by
  refine ⟨fun h => ?_, fun h => ?_, rfl⟩
  · unfold reverbTime
    dsimp only
    rw [reverbIr_ok estimate chs a h]
    cases each estimate chs <;> rfl
  · obtain ⟨e, h1, h2⟩ := reverbIr_error estimate chs a h
    refine ⟨e, ?_, h2⟩
    unfold reverbTime
    dsimp only
    rw [h1]

/-- The starts handed to the estimation: none, the common one, or those of the vector without their
fractional part. -/
theorem C148_starts (C : ℕ) :
    checkIr C .none = .ok (List.replicate C none) ∧
    (∀ k, checkIr C (.int k) = .ok (List.replicate C (some k))) ∧
    ∀ l : List ℚ, l.length = C → ∃ st : List ℤ, checkIr C (.array (.one l)) = .ok (st.map some) ∧
      checkIr C (.seq (some (.one l))) = .ok (st.map some) ∧ st.length = C ∧
      ∀ i (h : i < st.length) (h' : i < l.length),
        |(st[i] : ℚ)| ≤ |l[i]| ∧ |l[i]| < |(st[i] : ℚ)| + 1 ∧ 0 ≤ (st[i] : ℚ) * l[i] := by
  refine ⟨rfl, fun k => rfl, fun l hl => ⟨l.map trunc, ?_, ?_, by simpa using hl, fun i h h' => ?_⟩⟩
  · rw [List.map_map]
    exact if_pos hl
  · rw [List.map_map]
    exact if_pos hl
  · rw [List.getElem_map]
    generalize l[i] = x
    unfold trunc
    split_ifs with hx
    · have h0 : (0 : ℚ) ≤ (⌊x⌋ : ℤ) := by exact_mod_cast Int.floor_nonneg.mpr hx
      rw [abs_of_nonneg h0, abs_of_nonneg hx]
      exact ⟨Int.floor_le x, Int.lt_floor_add_one x, mul_nonneg h0 hx⟩
    · push Not at hx
      have h0 : ((⌈x⌉ : ℤ) : ℚ) ≤ 0 := by
        have : ⌈x⌉ ≤ 0 := Int.ceil_le.mpr (by simpa using hx.le)
        exact_mod_cast this
      rw [abs_of_nonpos h0, abs_of_neg hx]
      have h1 := Int.le_ceil x
      have h2 := Int.ceil_lt_add_one x
      exact ⟨by linarith, by linarith, mul_nonneg_of_nonpos_of_nonpos h0 hx.le⟩

/-! ## Bands -/

/-- Band `b` gets the starts of row `b` of a matrix, and every band the same ones from a number or a
vector: in each case those an impulse response would get. -/
theorem C148_band_starts (B C : ℕ) :
    (∀ f : ℕ → ℕ → ℚ, ∃ m, checkBands B C (.array (.two B C f)) = .ok (some m) ∧ m.length = B ∧
      ∀ b < B, checkIr C (.array (.one ((List.range C).map (f b)))) =
        .ok ((m.getD b []).map some)) ∧
    (∀ k, ∃ m, checkBands B C (.int k) = .ok (some m) ∧ m.length = B ∧
      ∀ b < B, checkIr C (.int k) = .ok ((m.getD b []).map some)) ∧
    ∀ l : List ℚ, l.length = C → ∃ m, checkBands B C (.array (.one l)) = .ok (some m) ∧
      m.length = B ∧ ∀ b < B, checkIr C (.array (.one l)) = .ok ((m.getD b []).map some) := by
  refine ⟨fun f => ⟨_, if_pos ⟨rfl, rfl⟩, by simp, fun b hb => ?_⟩,
    fun k => ⟨_, rfl, by simp, fun b hb => ?_⟩, fun l hl => ⟨_, rfl, by simp, fun b hb => ?_⟩⟩
  · have h1 : ((List.range B).map fun (b : ℕ) => (List.range C).map fun (c : ℕ) =>
        trunc (f b c)).getD b [] = (List.range C).map fun (c : ℕ) => trunc (f b c) := by
      simp [List.getD_eq_getElem?_getD, hb]
    rw [h1, List.map_map]
    unfold checkIr normalise
    dsimp only
    rw [if_pos (by simp), List.map_map]
    rfl
  · have h1 : (List.replicate B (List.replicate C k)).getD b [] = List.replicate C k := by
      simp [List.getD_eq_getElem?_getD, hb]
    rw [h1, List.map_replicate]
    rfl
  · have h1 : (List.replicate B (l.map trunc)).getD b [] = l.map trunc := by
      simp [List.getD_eq_getElem?_getD, hb]
    rw [h1, List.map_map]
    exact if_pos hl

theorem bands_ok (estimate : T → Except Err R) (l : List (List T)) (C : ℕ)
    (hC : ∀ b ∈ l, b.length = C) (st : Option (List (List ℤ)))
    (hst : ∀ m, st = some m → ∀ i < l.length, (m.getD i []).length = C) :
    ((l.map fun b => (true, b)).zipIdx.mapM fun p => reverbBand estimate st p.2 p.1) =
      l.mapM (each estimate) := by
  rw [zipIdx_mapM _ (fun p : Bool × List T => each estimate p.2)]
  · rw [List.mapM_map]
    rfl
  · intro p hp
    rw [List.mem_zipIdx_iff_getElem?] at hp
    obtain ⟨b, hb⟩ : ∃ b, l[p.2]? = some b ∧ (true, b) = p.1 := by
      rw [List.getElem?_map, Option.map_eq_some_iff] at hp
      exact hp
    have hi : p.2 < l.length := (List.getElem?_eq_some_iff.mp hb.1).1
    have hl : b.length = C := hC b (List.mem_of_getElem? hb.1)
    unfold reverbBand
    rw [← hb.2]
    dsimp only
    rw [if_pos rfl]
    apply reverbIr_ok
    cases st with
    | none => trivial
    | some m =>
      show ((m.getD p.2 []).map fun (k : ℤ) => (k : ℚ)).length = b.length
      rw [List.length_map, hst m rfl p.2 hi, hl]

/-- For at least one band, all of them impulse responses of `C` channels: valid starts give one row
per band and one value per channel, in order, each estimated on its own; invalid ones are
refused. -/
theorem C148_bands (estimate : T → Except Err R) (l : List (List T)) (hl : l ≠ []) (C : ℕ)
    (hC : ∀ b ∈ l, b.length = C) (a : Arg) :
    (ForBands l.length C a → reverbTime estimate (.bands (l.map fun b => (true, b))) a =
      labelled .bands (l.mapM (each estimate))) ∧
    (¬ ForBands l.length C a → ∃ e,
      reverbTime estimate (.bands (l.map fun b => (true, b))) a = .error e ∧
        (e = .assertionError ∨ e = .valueError)) := by
  have h0 : ((l.map fun b => (true, b)).getD 0 (true, [])).2.length = C := by
    cases l with
    | nil => exact absurd rfl hl
    | cons b l => simpa using hC b (by simp)
  have hne : l.map (fun b => (true, b)) ≠ [] := by simpa using hl
  have key : ∀ st, checkBands l.length C a = .ok st →
      (∀ m, st = some m → ∀ i < l.length, (m.getD i []).length = C) →
      reverbTime estimate (.bands (l.map fun b => (true, b))) a =
        labelled .bands (l.mapM (each estimate)) := by
    intro st h1 h2
    unfold reverbTime
    dsimp only
    rw [h0, List.length_map, h1]
    dsimp only
    rw [if_neg hne, bands_ok estimate l C hC st h2]
    cases l.mapM (each estimate) <;> rfl
  have bad : ∀ e, checkBands l.length C a = .error e →
      reverbTime estimate (.bands (l.map fun b => (true, b))) a = .error e := by
    intro e h1
    unfold reverbTime
    dsimp only
    rw [h0, List.length_map, h1]
  have vec : ∀ v : List ℚ, checkBands l.length C a = .ok (some (List.replicate l.length (v.map trunc))) →
      v.length ≠ C → ∃ e, reverbTime estimate (.bands (l.map fun b => (true, b))) a = .error e ∧
        (e = .assertionError ∨ e = .valueError) := by
    intro v h1 hv
    cases l with
    | nil => exact absurd rfl hl
    | cons b l =>
      have hb : b.length = C := hC b (by simp)
      have hrow : ((List.replicate (b :: l).length (v.map trunc)).getD 0 []) = v.map trunc := by
        simp
      obtain ⟨e, h2, h3⟩ := reverbIr_error estimate b
        (.array (.one ((v.map trunc).map fun (k : ℤ) => (k : ℚ)))) (by
          show ¬ _ = _
          rw [List.length_map, List.length_map, hb]
          exact hv)
      refine ⟨e, ?_, h3⟩
      unfold reverbTime
      dsimp only
      rw [h0, List.length_map, h1]
      dsimp only
      rw [if_neg hne, List.map_cons, List.zipIdx_cons, List.mapM_cons]
      have h4 : reverbBand estimate (some (List.replicate (b :: l).length (v.map trunc))) 0 (true, b) =
          .error e := by
        unfold reverbBand
        dsimp only
        rw [if_pos rfl, hrow]
        exact h2
      rw [h4]
      rfl
  match a, key, bad, vec with
  | .none, key, _, _ => exact ⟨fun _ => key none rfl (fun m h => by cases h), fun h => absurd trivial h⟩
  | .int k, key, _, _ =>
    refine ⟨fun _ => key _ rfl fun m hm i hi => ?_, fun h => absurd trivial h⟩
    cases hm
    simp [List.getD_eq_getElem?_getD, hi]
  | .seq none, _, bad, _ => exact ⟨fun h => h.elim, fun _ => ⟨_, bad _ rfl, Or.inr rfl⟩⟩
  | .seq (some (.zero x)), _, bad, _ => exact ⟨fun h => h.elim, fun _ => ⟨_, bad _ rfl, Or.inl rfl⟩⟩
  | .seq (some .more), _, bad, _ => exact ⟨fun h => h.elim, fun _ => ⟨_, bad _ rfl, Or.inl rfl⟩⟩
  | .array (.zero x), _, bad, _ => exact ⟨fun h => h.elim, fun _ => ⟨_, bad _ rfl, Or.inl rfl⟩⟩
  | .array .more, _, bad, _ => exact ⟨fun h => h.elim, fun _ => ⟨_, bad _ rfl, Or.inl rfl⟩⟩
  | .other, _, bad, _ => exact ⟨fun h => h.elim, fun _ => ⟨_, bad _ rfl, Or.inl rfl⟩⟩
  | .seq (some (.one v)), key, _, vec =>
    refine ⟨fun h => key _ rfl fun m hm i hi => ?_, fun h => vec v rfl h⟩
    cases hm
    have h' : v.length = C := h
    simp [List.getD_eq_getElem?_getD, hi, h']
  | .array (.one v), key, _, vec =>
    refine ⟨fun h => key _ rfl fun m hm i hi => ?_, fun h => vec v rfl h⟩
    cases hm
    have h' : v.length = C := h
    simp [List.getD_eq_getElem?_getD, hi, h']
  | .seq (some (.two r c f)), key, bad, _ =>
    refine ⟨fun h => ?_, fun h => ⟨_, bad _ (if_neg h), Or.inl rfl⟩⟩
    have h' : r = l.length ∧ c = C := h
    refine key _ (if_pos h') fun m hm i hi => ?_
    cases hm
    simp [List.getD_eq_getElem?_getD, h'.1, hi, h'.2]
  | .array (.two r c f), key, bad, _ =>
    refine ⟨fun h => ?_, fun h => ⟨_, bad _ (if_neg h), Or.inl rfl⟩⟩
    have h' : r = l.length ∧ c = C := h
    refine key _ (if_pos h') fun m hm i hi => ?_
    cases hm
    simp [List.getD_eq_getElem?_getD, h'.1, hi, h'.2]

/-- A band that is a plain `Signal` is refused, whatever the other ones are. -/
theorem C148_plain_band (estimate : T → Except Err R) (l : List (Bool × List T)) (b : List T)
    (hb : (false, b) ∈ l) (a : Arg) : ∃ e, reverbTime estimate (.bands l) a = .error e := by
  cases h : reverbTime estimate (.bands l) a with
  | error e => exact ⟨e, rfl⟩
  | ok v =>
    exfalso
    unfold reverbTime at h
    dsimp only at h
    cases h1 : checkBands l.length ((l.getD 0 (true, [])).2.length) a with
    | error e => rw [h1] at h; cases h
    | ok st =>
      rw [h1] at h
      dsimp only at h
      split_ifs at h with h2
      have hno : ∀ (l : List (Bool × List T)) (n : ℕ), (false, b) ∈ l → ∃ e,
          ((l.zipIdx n).mapM fun p => reverbBand estimate st p.2 p.1) = .error e := by
        intro l
        induction l with
        | nil => intro n h; simp at h
        | cons x l ih =>
          intro n hx
          rw [List.zipIdx_cons, List.mapM_cons]
          cases hb' : reverbBand estimate st n x with
          | error e => exact ⟨e, rfl⟩
          | ok v =>
            rcases List.mem_cons.mp hx with hx | hx
            · rw [← hx] at hb'
              cases hb'
            · obtain ⟨e, he⟩ := ih (n + 1) hx
              exact ⟨e, by rw [he]; rfl⟩
      obtain ⟨e, he⟩ := hno l 0 hb
      rw [he] at h
      cases h

/-! ## The start is not used -/

/-- The documented start of the impulse response has no effect: all valid starts give the result
without one. -/
theorem C148_start_ignored_wrong (estimate : T → Except Err R) (chs : List T) (l : List (List T))
    (hl : l ≠ []) (C : ℕ) (hC : ∀ b ∈ l, b.length = C) (a : Arg) :
    (ForChannels chs.length a →
      reverbTime estimate (.ir chs) a = reverbTime estimate (.ir chs) .none) ∧
    (ForBands l.length C a → reverbTime estimate (.bands (l.map fun b => (true, b))) a =
      reverbTime estimate (.bands (l.map fun b => (true, b))) .none) := by
  refine ⟨fun h => ?_, fun h => ?_⟩
  · rw [(C148_response estimate chs a).1 h, (C148_response estimate chs .none).1 trivial]
  · rw [(C148_bands estimate l hl C hC a).1 h, (C148_bands estimate l hl C hC .none).1 trivial]

/-! ## Examples -/

example : ForChannels 2 (.seq (some (.one [3, 7 / 2]))) ∧ ¬ ForChannels 2 (.array (.one [3])) ∧
    ForBands 1 2 (.array (.two 1 2 fun _ _ => 5)) ∧ ¬ ForBands 1 2 .other :=
  ⟨rfl, by simp [ForChannels], ⟨rfl, rfl⟩, fun h => h.elim⟩

example : reverbTime (fun x : ℕ => (.ok (x + 1) : Except Err ℕ)) (.ir [4, 5]) (.int 1000) =
    .ok (.ir [5, 6]) := rfl

end Verif.C148
