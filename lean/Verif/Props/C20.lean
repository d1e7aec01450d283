import Verif.Lemmas.SignalData
import Verif.Model.Trim
import Mathlib.Algebra.Order.Floor.Ring
import Mathlib.Data.Rat.Floor
import Mathlib.Tactic.Positivity
import Mathlib.Tactic.Linarith

/-!
# C20: cutting a signal by time or by level keeps exactly the requested span
-/

set_option linter.unusedSectionVars false

namespace Verif.SignalData

variable {K : Type} [Field K] [LinearOrder K] [IsStrictOrderedRing K]

/-- The signal `s'` holds the samples `first, ..., first + n - 1` of `s`, all channels. -/
def IsSpan (s' s : State K) (first n : ℕ) : Prop :=
  s'.HasShape n s.re.cols ∧ ∀ i < n, ∀ c < s.re.cols, s'.sample i c = s.sample (first + i) c

/-- Copying rows of a valid signal. -/
private theorem copy_span (s : State K) (hs : Valid s) (a b : ℕ) (hb : b ≤ s.re.rows)
    (hc : 1 ≤ s.re.cols) (hn : s.re.cols ≤ b - a) (h1 : ¬ (b - a = 1 ∧ s.re.cols = 1)) :
    ∃ s', copyWith s (Mat.toInput (sliceRows s.re a b)) = .ok s' ∧ IsSpan s' s a (b - a) := by
  have hmin : min b s.re.rows = b := by omega
  have hrows : (Mat.toInput (sliceRows s.re a b)).rows = b - a := by
    show min b s.re.rows - a = b - a
    rw [hmin]
  have hok := copyWith_ok s (Mat.toInput (sliceRows s.re a b)) (by rw [hrows]; exact hn)
    (by rw [hrows]; exact h1) (fun hcon => ⟨hc, fun r hr c hc' => ?_, by simp [Mat.toInput]⟩)
  · refine ⟨_, hok, ⟨hrows, rfl⟩, fun i hi c hc' => ?_⟩
    have hi' : a + i < s.re.rows := by omega
    have hi2 : i < b - a := hi
    simp [State.sample, Input.reMat, Mat.toInput, sliceRows, hmin, hi2, hc', hi', Nat.add_comm]
  · rw [hrows] at hr
    exact hs.bounded hcon (r + a) (by omega) c hc'

section length
variable [FloorRing K]

/-- **C20**, number of samples for a time: the nearest integer (exact for a whole number of
samples, never off by more than half a sample). -/
theorem C20_rounding (fs : ℕ) (t : K) :
    |(toSamples fs (some t) : K) - t * fs| ≤ 1 / 2 ∧
    ∀ k : ℤ, t * fs = k → toSamples fs (some t) = k := by
  have hfs : (0 : K) ≤ fs := Nat.cast_nonneg fs
  have hbound : |(toSamples fs (some t) : K) - t * fs| ≤ 1 / 2 := by
    unfold toSamples truncInt signOf
    simp only
    rcases lt_trichotomy t 0 with ht | ht | ht
    · have h1 : ¬ (0 : K) < t := not_lt.mpr ht.le
      rw [if_neg h1, if_pos ht]
      have hneg : t * fs ≤ 0 := mul_nonpos_of_nonpos_of_nonneg ht.le hfs
      rw [if_neg (by linarith)]
      have h2 := Int.le_ceil (t * fs + 1 / 2 * -1)
      have h3 := Int.ceil_lt_add_one (t * fs + 1 / 2 * -1)
      rw [abs_le]; constructor <;> linarith
    · subst ht
      simp
    · rw [if_pos ht]
      have hpos : 0 ≤ t * fs := mul_nonneg ht.le hfs
      rw [if_pos (by linarith)]
      have h2 := Int.floor_le (t * fs + 1 / 2 * 1)
      have h3 := Int.lt_floor_add_one (t * fs + 1 / 2 * 1)
      rw [abs_le]; constructor <;> linarith
  refine ⟨hbound, fun k hk => ?_⟩
  rw [hk] at hbound
  have h1 : |((toSamples fs (some t) - k : ℤ) : K)| ≤ 1 / 2 := by push_cast; exact hbound
  have h2 : |((toSamples fs (some t) - k : ℤ) : K)| < 1 := lt_of_le_of_lt h1 (by norm_num)
  have h3 : |toSamples fs (some t) - k| < 1 := by exact_mod_cast h2
  have := Int.abs_lt_one_iff.mp h3
  omega

/-- **C20**, `modify_signal_length` (partial): with `a` and `b` samples requested (counted
by `toSamples`), whenever something remains and the remaining length is not below the
number of channels, the result has `a + b` more samples and sample `i` is sample `i - a` of
the signal where there is one and zero elsewhere. -/
theorem C20_modify_length_partial (s : State K) (hs : Valid s) (fs : ℕ) (start stop : Option K)
    (hne : start ≠ none ∨ stop ≠ none) (hc : 1 ≤ s.re.cols) (n : ℕ)
    (ha : -(s.re.rows : ℤ) < toSamples fs start) (hb : -(s.re.rows : ℤ) < toSamples fs stop)
    (hn : (n : ℤ) = s.re.rows + toSamples fs start + toSamples fs stop)
    (hcn : s.re.cols ≤ n) (h1 : ¬ (n = 1 ∧ s.re.cols = 1)) :
    ∃ s', modifyLength s fs start stop = .ok s' ∧ s'.HasShape n s.re.cols ∧
      ∀ i < n, ∀ c < s.re.cols, s'.sample i c =
        if toSamples fs start ≤ i then s.sample ((i : ℤ) - toSamples fs start).toNat c else 0 := by
  set a := toSamples fs start with hadef
  set b := toSamples fs stop with hbdef
  set td : Mat K := if 0 ≤ a then padStart s.re a.toNat else
    sliceRows s.re (-a).toNat s.re.rows with htd
  set td' : Mat K := if 0 ≤ b then padEnd td b.toNat else
    sliceRows td 0 (td.rows - (-b).toNat) with htd'
  have hrows : (td.rows : ℤ) = s.re.rows + a := by
    rw [htd]; split_ifs with h
    · show ((s.re.rows + a.toNat : ℕ) : ℤ) = _
      omega
    · show ((min s.re.rows s.re.rows - (-a).toNat : ℕ) : ℤ) = _
      omega
  have hcols : td.cols = s.re.cols := by rw [htd]; split_ifs <;> rfl
  have hrows' : td'.rows = n := by
    rw [htd']; split_ifs with h
    · show td.rows + b.toNat = n
      omega
    · show min (td.rows - (-b).toNat) td.rows - 0 = n
      omega
  have hcols' : td'.cols = s.re.cols := by rw [htd']; split_ifs <;> exact hcols
  have hval : ∀ r < td.rows, ∀ c < s.re.cols, td.val r c =
      if a ≤ r then s.sample ((r : ℤ) - a).toNat c else 0 := by
    intro r hr c hc'
    rw [htd]
    by_cases h : 0 ≤ a
    · simp only [h, if_true, padStart]
      by_cases hra : r < a.toNat
      · rw [if_pos hra, if_neg (by omega)]
      · rw [if_neg hra, if_pos (by omega)]
        have h2 : ((r : ℤ) - a).toNat = r - a.toNat := by omega
        rw [h2]
        unfold State.sample
        rw [if_pos ⟨by omega, hc'⟩]
    · simp only [h, if_false, sliceRows]
      rw [if_pos (by omega)]
      have h2 : ((r : ℤ) - a).toNat = r + (-a).toNat := by omega
      rw [h2]
      unfold State.sample
      rw [if_pos ⟨by omega, hc'⟩]
  have hval' : ∀ r < n, ∀ c < s.re.cols, td'.val r c =
      if a ≤ r then s.sample ((r : ℤ) - a).toNat c else 0 := by
    intro r hr c hc'
    rw [htd']
    by_cases h : 0 ≤ b
    · simp only [h, if_true, padEnd]
      by_cases hr2 : r < td.rows
      · rw [if_pos hr2, hval r hr2 c hc']
      · rw [if_neg hr2]
        rw [if_pos (by omega)]
        unfold State.sample
        rw [if_neg (by omega)]
    · simp only [h, if_false, sliceRows, Nat.add_zero]
      exact hval r (by omega) c hc'
  have hok := setData_ok s (Mat.toInput td') (by show td'.cols ≤ td'.rows; omega)
    (by show ¬ (td'.rows = 1 ∧ td'.cols = 1); rw [hrows', hcols']; exact h1)
    (fun hcon => ⟨by show 1 ≤ td'.cols; omega, fun r hr c hc' => by
      have hr' : r < td'.rows := hr
      have hc2 : c < td'.cols := hc'
      show |td'.val r c| ≤ 1
      rw [hval' r (by omega) c (by omega)]
      split_ifs
      · exact sample_bounded hs hcon _ _
      · simp, by simp [Mat.toInput]⟩)
  have hdef : modifyLength s fs start stop = setData s (Mat.toInput td') := by
    unfold modifyLength
    rw [if_neg (by rintro ⟨h1, h2⟩; rcases hne with h | h <;> contradiction)]
    simp only
    rw [if_neg (by omega), if_neg (by omega), if_neg (by omega)]
  rw [hdef]
  refine ⟨_, hok, ⟨hrows', hcols'⟩, fun i hi c hc' => ?_⟩
  rw [← hval' i hi c hc']
  unfold State.sample
  rw [if_pos ⟨by show i < td'.rows; omega, by show c < td'.cols; omega⟩]
  rfl

omit [IsStrictOrderedRing K] in
/-- **C20**, rejected: cutting away everything raises AssertionError. -/
theorem C20_modify_length_raises (s : State K) (fs : ℕ) (start stop : Option K)
    (h : toSamples fs start ≤ -(s.re.rows : ℤ) ∨ toSamples fs stop ≤ -(s.re.rows : ℤ) ∨
      (toSamples fs start < 0 ∧ toSamples fs stop < 0 ∧
        (s.re.rows : ℤ) + toSamples fs start + toSamples fs stop ≤ 0))
    (hr : 0 < s.re.rows) :
    modifyLength s fs start stop = .error .assertionError := by
  unfold modifyLength
  simp only
  split_ifs <;> first | rfl | (exfalso; omega)

/-- Hypotheses are met: 3 samples, 2 channels, one zero in front and one sample off. -/
example : ∃ s', modifyLength demo 1 (some 1) (some (-1)) = .ok s' ∧ s'.HasShape 3 2 ∧
    ∀ i < 3, ∀ c < 2, s'.sample i c =
      if toSamples 1 (some (1 : ℚ)) ≤ i then
        demo.sample ((i : ℤ) - toSamples 1 (some (1 : ℚ))).toNat c else 0 := by
  have h1 : toSamples 1 (some (1 : ℚ)) = 1 := (C20_rounding 1 1).2 1 (by norm_num)
  have h2 : toSamples 1 (some (-1 : ℚ)) = -1 := (C20_rounding 1 (-1)).2 (-1) (by norm_num)
  refine C20_modify_length_partial demo demo_valid 1 (some 1) (some (-1)) (by simp)
    (by simp [demo]) 3 ?_ ?_ ?_ (by simp [demo]) (by simp)
  · rw [h1]; simp [demo]
  · rw [h2]; simp [demo]
  · rw [h1, h2]; simp [demo]

end length

section level

private theorem rowsAbove_mem (A : Mat K) (t : K) (r : ℕ) :
    r ∈ rowsAbove A t ↔ r < A.rows ∧ ∃ c < A.cols, t ≤ |A.val r c| := by
  unfold rowsAbove
  simp only [List.mem_flatMap, List.mem_range, List.mem_map, List.mem_filter,
    decide_eq_true_eq]
  constructor
  · rintro ⟨r', hr', c, ⟨hc, hle⟩, rfl⟩
    exact ⟨hr', c, hc, hle⟩
  · rintro ⟨hr, c, hc, hle⟩
    exact ⟨r, hr, c, ⟨hc, hle⟩, rfl⟩

private theorem rowsAbove_sorted (A : Mat K) (t : K) : (rowsAbove A t).Pairwise (· ≤ ·) := by
  unfold rowsAbove
  rw [List.pairwise_flatMap]
  constructor
  · intro r _
    rw [List.pairwise_map]
    exact List.Pairwise.imp (fun _ => le_rfl) (List.pairwise_of_forall_mem_list (r := fun _ _ => True)
      (by simp))
  · refine List.Pairwise.imp ?_ (List.pairwise_lt_range (n := A.rows))
    intro a b hab x hx y hy
    simp only [List.mem_map, List.mem_filter] at hx hy
    obtain ⟨_, _, rfl⟩ := hx
    obtain ⟨_, _, rfl⟩ := hy
    exact hab.le

private theorem min_take (l : List ℕ) (hl : l.Pairwise (· ≤ ·)) (n : ℕ) (hn : 1 ≤ n) (a : ℕ)
    (h : (l.take n).min? = some a) : a ∈ l ∧ ∀ b ∈ l, a ≤ b := by
  rw [List.min?_eq_some_iff] at h
  refine ⟨List.mem_of_mem_take h.1, fun b hb => ?_⟩
  match l, hl with
  | [], _ => simp at hb
  | x :: l, hl =>
    obtain ⟨m, rfl⟩ : ∃ m, n = m + 1 := ⟨n - 1, by omega⟩
    have hx : a ≤ x := h.2 x (by simp)
    rcases List.mem_cons.mp hb with rfl | hb
    · exact hx
    · exact le_trans hx (List.rel_of_pairwise_cons hl hb)

private theorem max_drop (l : List ℕ) (hl : l.Pairwise (· ≤ ·)) (n : ℕ) (hn : 1 ≤ n) (a : ℕ)
    (h : (l.drop (l.length - n)).max? = some a) : a ∈ l ∧ ∀ b ∈ l, b ≤ a := by
  rw [List.max?_eq_some_iff] at h
  refine ⟨List.mem_of_mem_drop h.1, fun b hb => ?_⟩
  have hne : l ≠ [] := List.ne_nil_of_mem hb
  have hpos : 0 < l.length := List.length_pos_iff.mpr hne
  have hlast : l.getLast hne ∈ l.drop (l.length - n) := by
    rw [List.mem_iff_getElem]
    refine ⟨l.length - 1 - (l.length - n), by rw [List.length_drop]; omega, ?_⟩
    rw [List.getElem_drop, List.getLast_eq_getElem]
    congr 1
    omega
  refine le_trans ?_ (h.2 _ hlast)
  obtain ⟨i, hi, rfl⟩ := List.getElem_of_mem hb
  rw [List.getLast_eq_getElem]
  by_cases hi' : i = l.length - 1
  · subst hi'; exact le_rfl
  · exact List.pairwise_iff_getElem.mp hl i (l.length - 1) hi (by omega) (by omega)

/-- Some channel of sample `r` reaches the level `t`. -/
def Loud (s : State K) (t : K) (r : ℕ) : Prop :=
  r < s.re.rows ∧ ∃ c < s.re.cols, t ≤ |s.sample r c|

private theorem loud_iff (s : State K) (t : K) (r : ℕ) :
    Loud s t r ↔ r ∈ rowsAbove s.re t := by
  rw [rowsAbove_mem]
  unfold Loud State.sample
  constructor
  · rintro ⟨hr, c, hc, h⟩
    rw [if_pos ⟨hr, hc⟩] at h
    exact ⟨hr, c, hc, h⟩
  · rintro ⟨hr, c, hc, h⟩
    refine ⟨hr, c, hc, ?_⟩
    rw [if_pos ⟨hr, hc⟩]
    exact h

/-- **C20**, level threshold: every successful call returns `first` and `stop` such that
`first` is the first sample at which some channel reaches the threshold (or 0 if the start
is not trimmed) and `stop - 1` the last one (or the end): all loud samples are inside the
kept span and, at a trimmed end, it cannot be made shorter. -/
theorem C20_level_span (s s' : State K) (t : K) (atStart atEnd : Bool) (first stop : ℕ)
    (hc : 1 ≤ s.re.cols) (h : trimLevel s t atStart atEnd = .ok (s', first, stop)) :
    (∀ r, Loud s t r → first ≤ r ∧ r < stop) ∧ stop ≤ s.re.rows ∧
    (atStart = true → Loud s t first) ∧ (atStart = false → first = 0) ∧
    (atEnd = true → 0 < stop ∧ Loud s t (stop - 1)) ∧ (atEnd = false → stop = s.re.rows) ∧
    copyWith s (Mat.toInput (sliceRows s.re first stop)) = .ok s' := by
  have hsort := rowsAbove_sorted s.re t
  unfold trimLevel at h
  split at h
  · exact absurd h (by simp)
  · simp only at h
    split at h
    · rename_i a b hstart hstop
      split at h
      · rename_i s'' hcopy
        have h' := Except.ok.inj h
        simp only [Prod.mk.injEq] at h'
        obtain ⟨rfl, rfl, rfl⟩ := h'
        have hA : (∀ r, Loud s t r → a ≤ r) ∧ (atStart = true → Loud s t a) ∧
            (atStart = false → a = 0) := by
          cases atStart with
          | true =>
            simp only [if_true] at hstart
            obtain ⟨h1, h2⟩ := min_take _ hsort _ hc _ hstart
            exact ⟨fun r hr => h2 r ((loud_iff s t r).mp hr), fun _ => (loud_iff s t a).mpr h1,
              by simp⟩
          | false =>
            simp only [Bool.false_eq_true, if_false, Option.some.injEq] at hstart
            subst hstart
            exact ⟨fun _ _ => Nat.zero_le _, by simp, fun _ => rfl⟩
        have hB : (∀ r, Loud s t r → r < b) ∧ b ≤ s.re.rows ∧
            (atEnd = true → 0 < b ∧ Loud s t (b - 1)) ∧ (atEnd = false → b = s.re.rows) := by
          cases atEnd with
          | true =>
            simp only [if_true] at hstop
            rw [Option.map_eq_some_iff] at hstop
            obtain ⟨m, hm, rfl⟩ := hstop
            obtain ⟨h1, h2⟩ := max_drop _ hsort _ hc _ hm
            have hlt := ((loud_iff s t m).mpr h1).1
            have hmin : min s.re.rows (m + 1) = m + 1 := by omega
            rw [hmin]
            exact ⟨fun r hr => Nat.lt_succ_of_le (h2 r ((loud_iff s t r).mp hr)), by omega,
              fun _ => ⟨by omega, by simpa using (loud_iff s t m).mpr h1⟩, by simp⟩
          | false =>
            simp only [Bool.false_eq_true, if_false, Option.some.injEq] at hstop
            subst hstop
            exact ⟨fun r hr => hr.1, le_rfl, by simp, fun _ => rfl⟩
        exact ⟨fun r hr => ⟨hA.1 r hr, hB.1 r hr⟩, hB.2.1, hA.2.1, hA.2.2, hB.2.2.1, hB.2.2.2,
          hcopy⟩
      · exact absurd h (by simp)
    · exact absurd h (by simp)

/-- **C20**, level threshold, existence (partial): if some sample reaches the threshold and
the span from the first to the last one is not shorter than the number of channels, the
call succeeds and the result holds exactly the samples of that span; if no sample does,
ValueError is raised.  Missing: short spans, which are transposed. -/
theorem C20_level_result_partial (s : State K) (hs : Valid s) (t : K) (hc : 1 ≤ s.re.cols) :
    (∀ a b, Loud s t a → Loud s t b → (∀ r, Loud s t r → a ≤ r ∧ r ≤ b) →
      s.re.cols ≤ b + 1 - a → ¬ (b + 1 - a = 1 ∧ s.re.cols = 1) →
      ∃ s', trimLevel s t true true = .ok (s', a, b + 1) ∧ IsSpan s' s a (b + 1 - a)) ∧
    ((∀ r, ¬ Loud s t r) → trimLevel s t true true = .error .valueError) := by
  have hsort := rowsAbove_sorted s.re t
  constructor
  · intro a b ha hb hab hn h1
    have hne : rowsAbove s.re t ≠ [] := List.ne_nil_of_mem ((loud_iff s t a).mp ha)
    have hlen : 0 < (rowsAbove s.re t).length := List.length_pos_iff.mpr hne
    obtain ⟨m, hm⟩ : ∃ m, ((rowsAbove s.re t).take s.re.cols).min? = some m := by
      cases hmin : ((rowsAbove s.re t).take s.re.cols).min? with
      | some m => exact ⟨m, rfl⟩
      | none =>
        rw [List.min?_eq_none_iff] at hmin
        have : ((rowsAbove s.re t).take s.re.cols).length = 0 := by rw [hmin]; rfl
        rw [List.length_take] at this
        omega
    obtain ⟨m', hm'⟩ : ∃ m', ((rowsAbove s.re t).drop
        ((rowsAbove s.re t).length - s.re.cols)).max? = some m' := by
      cases hmax : ((rowsAbove s.re t).drop ((rowsAbove s.re t).length - s.re.cols)).max? with
      | some m => exact ⟨m, rfl⟩
      | none =>
        rw [List.max?_eq_none_iff] at hmax
        have : ((rowsAbove s.re t).drop ((rowsAbove s.re t).length - s.re.cols)).length = 0 := by
          rw [hmax]; rfl
        rw [List.length_drop] at this
        omega
    obtain ⟨hma, hma'⟩ := min_take _ hsort _ hc _ hm
    obtain ⟨hmb, hmb'⟩ := max_drop _ hsort _ hc _ hm'
    have hA : m = a := le_antisymm (hma' a ((loud_iff s t a).mp ha))
      (hab m ((loud_iff s t m).mpr hma)).1
    have hB : m' = b := le_antisymm (hab m' ((loud_iff s t m').mpr hmb)).2
      (hmb' b ((loud_iff s t b).mp hb))
    subst hA
    subst hB
    have hlt := hb.1
    have hmin : min s.re.rows (m' + 1) = m' + 1 := by omega
    obtain ⟨s', hs', hspan⟩ := copy_span s hs m (m' + 1) (by omega) hc hn h1
    refine ⟨s', ?_, hspan⟩
    simp [trimLevel, hm, hm', hmin, hs']
  · intro hno
    have hnil : rowsAbove s.re t = [] := by
      rw [List.eq_nil_iff_forall_not_mem]
      intro r hr
      exact hno r ((loud_iff s t r).mpr hr)
    simp [trimLevel, hnil]

/-- In the example signal samples 1 and 2 reach 1/2 in channel 1 (and 0 as well). -/
example : ∃ s', trimLevel demo (1 / 2) true true = .ok (s', 0, 3) ∧ IsSpan s' demo 0 3 := by
  have hl : ∀ r, r < 3 → Loud demo (1 / 2) r := by
    intro r hr
    refine ⟨hr, 1, by simp [demo], ?_⟩
    have h2 : (0 : ℚ) ≤ r := Nat.cast_nonneg r
    have : demo.sample r 1 = ((r : ℚ) + 3 * (1 : ℕ)) / 6 := if_pos ⟨hr, by simp [demo]⟩
    rw [this, abs_of_nonneg (by positivity)]
    push_cast
    linarith
  exact (C20_level_result_partial demo demo_valid (1 / 2) (by simp [demo])).1 0 2
    (hl 0 (by norm_num)) (hl 2 (by norm_num))
    (fun r hr => ⟨Nat.zero_le _, by have : r < 3 := hr.1; omega⟩) (by simp [demo]) (by simp)

end level

section time
variable [FloorRing K]

/-- **C20**, time selection, inclusive bounds (partial: the start on a sample, enough
samples for the channels): the kept samples are exactly those with
`start ≤ n / fs ≤ end`. -/
theorem C20_time_inclusive_partial (s : State K) (hs : Valid s) (fs : ℕ) (hfs : 0 < fs)
    (start stop : K) (k : ℕ) (hk : start * fs = k) (hks : 0 ≤ start)
    (hlt : start < s.re.rows / fs) (hstop : 0 < stop) (hle : stop ≤ s.re.rows / fs)
    (hord : start ≤ stop) (hc : 1 ≤ s.re.cols)
    (hn : s.re.cols ≤ min (⌊stop * fs⌋.toNat + 1) s.re.rows - k)
    (h1 : ¬ (min (⌊stop * fs⌋.toNat + 1) s.re.rows - k = 1 ∧ s.re.cols = 1)) :
    ∃ s' first n, trimTime s fs (some start) (some stop) true = .ok s' ∧ IsSpan s' s first n ∧
      ∀ r, r < s.re.rows →
        ((first ≤ r ∧ r < first + n) ↔ (start ≤ (r : K) / fs ∧ (r : K) / fs ≤ stop)) := by
  have hfs' : (0 : K) < fs := by exact_mod_cast hfs
  set e := ⌊stop * fs⌋.toNat with he
  have he0 : 0 ≤ ⌊stop * fs⌋ := Int.floor_nonneg.mpr (mul_nonneg hstop.le hfs'.le)
  have hecast : (e : ℤ) = ⌊stop * fs⌋ := Int.toNat_of_nonneg he0
  have hke : k ≤ e := by
    have : (k : ℤ) ≤ ⌊stop * fs⌋ := by
      rw [Int.le_floor]
      push_cast
      rw [← hk]
      exact mul_le_mul_of_nonneg_right hord hfs'.le
    omega
  have htrunc : truncInt (stop * fs) = e := by
    unfold truncInt
    rw [if_pos (mul_nonneg hstop.le hfs'.le), hecast]
  have htrunck : truncInt (start * fs) = k := by
    unfold truncInt
    rw [if_pos (mul_nonneg hks hfs'.le), hk]
    simp
  obtain ⟨s', hs', hspan⟩ := copy_span s hs k (min (e + 1) s.re.rows) (by omega) hc hn h1
  have hslice : sliceRows s.re k (min (e + 1) s.re.rows) = sliceRows s.re k (e + 1) := by
    unfold sliceRows
    simp
  rw [hslice] at hs'
  refine ⟨s', k, min (e + 1) s.re.rows - k, ?_, hspan, fun r hr => ?_⟩
  · have hgt : ((e : ℤ) + 1 > k) := by omega
    have hgt' : ((e : ℤ) + 1 > 0) := by omega
    unfold trimTime
    simp only [reduceCtorEq, false_and, if_false, htrunc, htrunck, not_true, hks, hlt, hle,
      hstop, if_true]
    rw [if_neg hstop.ne']
    by_cases h0 : start = 0
    · have hk0 : k = 0 := by
        rw [h0, zero_mul] at hk
        exact_mod_cast hk.symm
      subst hk0
      simp only [h0, if_true]
      rw [if_pos hgt']
      exact hs'
    · simp only [h0, if_false, add_zero]
      rw [if_pos hgt]
      exact hs'
  · rw [le_div_iff₀ hfs', div_le_iff₀ hfs', hk]
    have h2 : (r : K) ≤ stop * fs ↔ r ≤ e := by
      have : (r : K) ≤ stop * fs ↔ ((r : ℤ) : K) ≤ stop * fs := by push_cast; rfl
      rw [this, ← Int.le_floor]
      omega
    rw [h2, Nat.cast_le]
    omega

/-- **C20**, time selection, exclusive bounds (partial: a start above 0, the end on a
sample): the kept samples are exactly those with `start < n / fs < end`. -/
theorem C20_time_exclusive_partial (s : State K) (hs : Valid s) (fs : ℕ) (hfs : 0 < fs)
    (start stop : K) (k : ℕ) (hk : stop * fs = k) (hks : 0 < start)
    (hlt : start < s.re.rows / fs) (hstop : 0 < stop) (hle : stop ≤ s.re.rows / fs)
    (hc : 1 ≤ s.re.cols)
    (hn : s.re.cols ≤ k - (⌊start * fs⌋.toNat + 1))
    (h1 : ¬ (k - (⌊start * fs⌋.toNat + 1) = 1 ∧ s.re.cols = 1)) :
    ∃ s' first n, trimTime s fs (some start) (some stop) false = .ok s' ∧ IsSpan s' s first n ∧
      ∀ r, r < s.re.rows →
        ((first ≤ r ∧ r < first + n) ↔ (start < (r : K) / fs ∧ (r : K) / fs < stop)) := by
  have hfs' : (0 : K) < fs := by exact_mod_cast hfs
  set e := ⌊start * fs⌋.toNat with he
  have he0 : 0 ≤ ⌊start * fs⌋ := Int.floor_nonneg.mpr (mul_nonneg hks.le hfs'.le)
  have hecast : (e : ℤ) = ⌊start * fs⌋ := Int.toNat_of_nonneg he0
  have htrunc : truncInt (start * fs) = e := by
    unfold truncInt
    rw [if_pos (mul_nonneg hks.le hfs'.le), hecast]
  have htrunck : truncInt (stop * fs) = k := by
    unfold truncInt
    rw [if_pos (mul_nonneg hstop.le hfs'.le), hk]
    simp
  have hkr : k ≤ s.re.rows := by
    rw [le_div_iff₀ hfs', hk] at hle
    exact_mod_cast hle
  obtain ⟨s', hs', hspan⟩ := copy_span s hs (e + 1) k hkr hc hn h1
  refine ⟨s', e + 1, k - (e + 1), ?_, hspan, fun r hr => ?_⟩
  · have hgt : ((k : ℤ) > e + 1) := by omega
    unfold trimTime
    simp only [reduceCtorEq, false_and, if_false, htrunc, htrunck, not_true, hks.le, hlt, hle,
      hstop, hks.ne', hstop.ne', Bool.false_eq_true, add_zero]
    rw [if_pos hgt]
    exact hs'
  · rw [lt_div_iff₀ hfs', div_lt_iff₀ hfs', hk]
    have h2 : start * fs < (r : K) ↔ e < r := by
      have : start * fs < (r : K) ↔ start * fs < ((r : ℤ) : K) := by push_cast; rfl
      rw [this, ← Int.floor_lt]
      omega
    rw [h2, Nat.cast_lt]
    omega

/-- The time selection keeps a sample before the start if the start is not on a sample:
`fs = 2`, start 3/4 s, and the sample at 1/2 s is kept. -/
theorem C20_time_start_off_grid : ∃ s' : State ℚ,
    trimTime (⟨⟨4, 1, fun r _ => (r : ℚ)⟩, none, false, 1⟩ : State ℚ) 2 (some (3 / 4)) none true
      = .ok s' ∧ s'.HasShape 3 1 ∧ s'.sample 0 0 = 1 := by
  have h1 : truncInt ((3 / 4 : ℚ) * (2 : ℕ)) = 1 := by
    unfold truncInt
    rw [if_pos (by norm_num), Int.floor_eq_iff]
    norm_num
  refine ⟨⟨⟨3, 1, fun r _ => ((r + 1 : ℕ) : ℚ)⟩, none, false, 1⟩, ?_, ?_⟩
  · have key : trimTime (⟨⟨4, 1, fun r _ => (r : ℚ)⟩, none, false, 1⟩ : State ℚ) 2
        (some (3 / 4)) none true = copyWith ⟨⟨4, 1, fun r _ => (r : ℚ)⟩, none, false, 1⟩
          (Mat.toInput (sliceRows ⟨4, 1, fun r _ => (r : ℚ)⟩ 1 4)) := by
      unfold trimTime
      simp only [h1]
      norm_num
      rw [if_neg (by simp)]
      rfl
    rw [key]
    rfl
  · exact ⟨⟨rfl, rfl⟩, by norm_num [State.sample]⟩

/-- With exclusive bounds and start 0 the sample at time 0 is kept. -/
theorem C20_time_exclusive_start_zero : ∃ s' : State ℚ,
    trimTime (⟨⟨4, 1, fun r _ => (r : ℚ)⟩, none, false, 1⟩ : State ℚ) 1 (some 0) (some 3) false
      = .ok s' ∧ s'.HasShape 3 1 ∧ s'.sample 2 0 = 2 := by
  have h1 : truncInt ((3 : ℚ) * (1 : ℕ)) = 3 := by
    unfold truncInt
    rw [if_pos (by norm_num), Int.floor_eq_iff]
    norm_num
  refine ⟨⟨⟨3, 1, fun r _ => ((r + 0 : ℕ) : ℚ)⟩, none, false, 1⟩, ?_, ?_⟩
  · unfold trimTime
    simp only [h1]
    norm_num
    rfl
  · exact ⟨⟨rfl, rfl⟩, by norm_num [State.sample]⟩

/-- Hypotheses of the time selection are met: 3 samples, 2 channels, from 1 s on. -/
example : ∃ s' first n, trimTime demo 1 (some 1) (some 2) true = .ok s' ∧
    IsSpan s' demo first n ∧ ∀ r, r < 3 →
      ((first ≤ r ∧ r < first + n) ↔ ((1 : ℚ) ≤ (r : ℚ) / (1 : ℕ) ∧ (r : ℚ) / (1 : ℕ) ≤ 2)) := by
  have hf : ⌊(2 : ℚ) * (1 : ℕ)⌋ = 2 := by norm_num
  refine C20_time_inclusive_partial demo demo_valid 1 (by norm_num) 1 2 1 (by norm_num)
    (by norm_num) (by norm_num [demo]) (by norm_num) (by norm_num [demo]) (by norm_num)
    (by simp [demo]) ?_ ?_
  · rw [hf]; simp [demo]
  · rw [hf]; simp [demo]

/-- Hypotheses of the exclusive selection are met by a long signal. -/
example : ∃ s' first n,
    trimTime (⟨⟨6, 2, fun r c => (r + c : ℚ)⟩, none, false, 1⟩ : State ℚ) 1 (some (1 / 2))
      (some 5) false = .ok s' ∧
    IsSpan s' ⟨⟨6, 2, fun r c => (r + c : ℚ)⟩, none, false, 1⟩ first n ∧ ∀ r, r < 6 →
      ((first ≤ r ∧ r < first + n) ↔
        ((1 / 2 : ℚ) < (r : ℚ) / (1 : ℕ) ∧ (r : ℚ) / (1 : ℕ) < 5)) := by
  have hf : ⌊(1 / 2 : ℚ) * (1 : ℕ)⌋ = 0 := by norm_num
  refine C20_time_exclusive_partial _ ⟨by simp, by simp, by simp⟩ 1 (by norm_num) (1 / 2) 5 5
    (by norm_num) (by norm_num) (by norm_num) (by norm_num) (by norm_num) (by norm_num) ?_ ?_
  · rw [hf]; simp
  · rw [hf]; simp

omit [IsStrictOrderedRing K] in
/-- An end time of 0 keeps the whole signal instead of raising. -/
theorem C20_time_end_zero (s : State K) (fs : ℕ) (inclusive : Bool) (hr : 0 < s.re.rows) :
    trimTime s fs none (some 0) inclusive =
      copyWith s (Mat.toInput (sliceRows s.re 0 s.re.rows)) := by
  have : (s.re.rows : ℤ) > 0 := by omega
  simp [trimTime, hr]

end time

end Verif.SignalData
