import Verif.Model.FilterCoeffs
import Verif.Spec.DifferenceEq
import Mathlib.Algebra.Field.Rat
import Mathlib.Tactic.Ring
import Mathlib.Tactic.FieldSimp
import Mathlib.Algebra.BigOperators.Field

/-!
# C53: coefficients of filters
-/

set_option linter.unusedSectionVars false

namespace Verif.FilterCoeffs

variable {K : Type} [Field K] [DecidableEq K]

/-- Number of coefficient kinds in the dictionary. -/
def kinds {Z : Type} (d : Dict K Z) : ℕ :=
  d.ba.isSome.toNat + d.sos.isSome.toNat + d.zpk.isSome.toNat

/-- A denominator with a single non-zero coefficient, the leading one. -/
def SingleLeading (a : List K) : Prop := a.getD 0 0 ≠ 0 ∧ ∀ i, 1 ≤ i → a.getD i 0 = 0

/-- No or two kinds of coefficients are rejected.  (Three are not, see below.) -/
theorem C53_kinds_partial {Z : Type} (zpk2sos : Z → List (List K)) (d : Dict K Z)
    (h : kinds d = 0 ∨ kinds d = 2) : construct zpk2sos d = .error .assertionError := by
  unfold construct
  rw [if_pos]
  unfold kinds at h
  revert h
  cases d.ba.isSome <;> cases d.sos.isSome <;> cases d.zpk.isSome <;> simp

/-- One kind of valid coefficients is accepted. -/
theorem C53_one_kind {Z : Type} (zpk2sos : Z → List (List K)) (d : Dict K Z) (h : kinds d = 1)
    (hs : ∀ s, d.sos = some s → ∀ r ∈ s, r.length = 6)
    (hz : ∀ z, d.zpk = some z → ∀ r ∈ zpk2sos z, r.length = 6) :
    ∃ s, construct zpk2sos d = .ok s ∧
      s.ba = d.ba.map (fun p => setBa p.1 p.2) ∧ s.zpk = d.zpk ∧
      s.sos = (d.zpk.map zpk2sos).or d.sos := by
  have hok : ∀ s : List (List K), (∀ r ∈ s, r.length = 6) → setSos s = .ok s := by
    intro s hs
    unfold setSos
    rw [if_neg]
    simpa using hs
  obtain ⟨ba, sos, zpk⟩ := d
  unfold kinds at h
  unfold construct
  cases ba with
  | none =>
    cases sos with
    | none =>
      cases zpk with
      | none => simp at h
      | some z => exact ⟨_, by simp [hok _ (hz z rfl), Except.map]; rfl, rfl, rfl, rfl⟩
    | some s =>
      cases zpk with
      | none => exact ⟨_, by simp [hok _ (hs s rfl), Except.map]; rfl, rfl, rfl, rfl⟩
      | some z => simp at h
  | some p =>
    cases sos with
    | none =>
      cases zpk with
      | none => exact ⟨_, by simp; rfl, rfl, rfl, rfl⟩
      | some z => simp at h
    | some s =>
      cases zpk with
      | none => simp at h
      | some z => simp at h

/-- Disagreement: all three kinds at once are accepted; zeros and poles win, the sections and the
`b`, `a` coefficients given are ignored. -/
theorem C53_three_kinds {Z : Type} (zpk2sos : Z → List (List K)) (p : List K × List K)
    (s : List (List K)) (z : Z) (hz : ∀ r ∈ zpk2sos z, r.length = 6) :
    construct zpk2sos ⟨some p, some s, some z⟩ = .ok ⟨none, some (zpk2sos z), some z⟩ := by
  have : setSos (zpk2sos z) = .ok (zpk2sos z) := by
    unfold setSos
    rw [if_neg]
    simpa using hz
  simp [construct, this, Except.map]

theorem dropWhile_zeros (l : List K) :
    ∃ n, l = List.replicate n 0 ++ l.dropWhile (· = 0) ∧
      ∀ c rest, l.dropWhile (· = 0) = c :: rest → c ≠ 0 := by
  induction l with
  | nil => exact ⟨0, rfl, fun c rest h => by simp at h⟩
  | cons x l ih =>
    by_cases hx : x = 0
    · obtain ⟨n, hn, hne⟩ := ih
      refine ⟨n + 1, ?_, ?_⟩
      · rw [List.dropWhile_cons, if_pos (by simpa using hx), List.replicate_succ, List.cons_append,
          ← hn, hx]
      · intro c rest h
        rw [List.dropWhile_cons, if_pos (by simpa using hx)] at h
        exact hne c rest h
    · refine ⟨0, ?_, ?_⟩
      · rw [List.dropWhile_cons, if_neg (by simpa using hx)]
        rfl
      · intro c rest h
        rw [List.dropWhile_cons, if_neg (by simpa using hx)] at h
        cases h
        exact hx

theorem trimBack_spec (a : List K) :
    ∃ n, a = trimBack a ++ List.replicate n 0 ∧
      ∀ c rest, (trimBack a).reverse = c :: rest → c ≠ 0 := by
  obtain ⟨n, hn, hne⟩ := dropWhile_zeros a.reverse
  refine ⟨n, ?_, ?_⟩
  · have := congrArg List.reverse hn
    rw [List.reverse_reverse, List.reverse_append, List.reverse_replicate] at this
    exact this
  · intro c rest h
    unfold trimBack at h
    rw [List.reverse_reverse] at h
    exact hne c rest h

theorem trimBack_one_iff (a : List K) : (trimBack a).length = 1 ↔ SingleLeading a := by
  obtain ⟨n, hn, hne⟩ := trimBack_spec a
  constructor
  · intro h
    obtain ⟨c, hc⟩ := List.length_eq_one_iff.mp h
    have hc0 : c ≠ 0 := hne c [] (by rw [hc]; rfl)
    rw [hc] at hn
    rw [hn]
    refine ⟨by simpa using hc0, fun i hi => ?_⟩
    obtain ⟨j, rfl⟩ : ∃ j, i = j + 1 := ⟨i - 1, by omega⟩
    simp only [List.singleton_append, List.getD_cons_succ]
    by_cases hj : j < n
    · rw [List.getD_eq_getElem _ _ (by simpa using hj), List.getElem_replicate]
    · rw [List.getD_eq_default _ _ (by simpa using hj)]
  · rintro ⟨h0, h1⟩
    cases ht : (trimBack a).reverse with
    | nil =>
      have : trimBack a = [] := by simpa using ht
      rw [this, List.nil_append] at hn
      rw [hn] at h0
      exfalso
      apply h0
      cases n <;> simp [List.replicate_succ]
    | cons c rest =>
      have hc := hne c rest ht
      have hta : trimBack a = rest.reverse ++ [c] := by
        have := congrArg List.reverse ht
        rwa [List.reverse_reverse, List.reverse_cons] at this
      have hget : a.getD rest.length 0 = c := by
        rw [hn, hta, List.append_assoc, List.getD_eq_getElem _ _ (by simp)]
        simp
      have hz : rest.length = 0 := by
        by_contra hr
        exact hc (by rw [← hget]; exact h1 _ (by omega))
      rw [hta]
      simp [List.length_eq_zero_iff.mp hz]

/-- A filter built from `b` and `a` is FIR exactly if the denominator has a single non-zero
coefficient, the leading one. -/
theorem C53_fir_iff {Z : Type} (zpk2sos : Z → List (List K)) (b a : List K) :
    ∃ s, construct zpk2sos ⟨some (b, a), none, none⟩ = .ok s ∧
      (isIir s = .ok false ↔ SingleLeading a) ∧ (isIir s = .ok true ↔ ¬SingleLeading a) := by
  refine ⟨⟨some (setBa b a), none, none⟩, rfl, ?_⟩
  have key : ((setBa b a).2.length = 1 ∧ (setBa b a).2.getD 0 0 = 1) ↔ SingleLeading a := by
    unfold setBa
    by_cases h : (trimBack a).length = 1
    · rw [if_pos h]
      have hsl := (trimBack_one_iff a).mp h
      refine ⟨fun _ => hsl, fun _ => ⟨by simpa using h, ?_⟩⟩
      obtain ⟨c, hc⟩ := List.length_eq_one_iff.mp h
      obtain ⟨n, hn, hne⟩ := trimBack_spec a
      have hc0 : c ≠ 0 := hne c [] (by rw [hc]; rfl)
      rw [hc]
      simp [hc0]
    · rw [if_neg h]
      refine ⟨fun h1 => ?_, fun h1 => absurd ((trimBack_one_iff a).mpr h1) h⟩
      exfalso
      apply h
      obtain ⟨c, hc⟩ := List.length_eq_one_iff.mp h1.1
      have h2 := h1.2
      simp only at h2 hc
      rw [hc] at h2 ⊢
      rw [trimBack_one_iff]
      refine ⟨?_, fun i hi => ?_⟩
      · rw [h2]; exact one_ne_zero
      · rw [List.getD_eq_default _ _ (by simpa using hi)]
  unfold isIir
  simp only [Option.isSome_none, Bool.false_eq_true, if_false, Except.ok.injEq,
    Bool.not_eq_eq_eq_not, Bool.not_false, Bool.not_true, decide_eq_true_eq, decide_eq_false_iff_not]
  exact ⟨key, not_congr key⟩

theorem tapSum_div (b l : List K) (c : K) : tapSum (b.map (· / c)) l = tapSum b l / c := by
  unfold tapSum
  rw [List.length_map, Finset.sum_div]
  refine Finset.sum_congr rfl fun i hi => ?_
  have hi := Finset.mem_range.mp hi
  rw [List.getD_eq_getElem _ _ (by simpa using hi), List.getD_eq_getElem _ _ hi, List.getElem_map]
  ring

/-- The coefficients stored describe the same filter as those given: for all input and output
sequences, the difference equation holds with the ones exactly if it holds with the others. -/
theorem C53_same_filter (b a xs ys : List K) :
    SolvesDE (setBa b a).1 (setBa b a).2 xs ys ↔ SolvesDE b a xs ys := by
  unfold setBa
  by_cases h : (trimBack a).length = 1
  · rw [if_pos h]
    obtain ⟨c, hc⟩ := List.length_eq_one_iff.mp h
    obtain ⟨n, hn, hne⟩ := trimBack_spec a
    have hc0 : c ≠ 0 := hne c [] (by rw [hc]; rfl)
    rw [hc] at hn ⊢
    unfold SolvesDE
    refine and_congr_right fun _ => forall_congr' fun j => ?_
    rw [List.getD_cons_zero, tapSum_div, tapSum_div, hn]
    have : tapSum ([c] ++ List.replicate n 0) (ys.drop j) = tapSum [c] (ys.drop j) := by
      unfold tapSum
      rw [← Finset.sum_subset (s₁ := Finset.range 1)]
      · simp
      · exact Finset.range_mono (by simp)
      · intro i hi hi1
        have h1 : 1 ≤ i := not_lt.mp fun h => hi1 (Finset.mem_range.mpr h)
        have h2 : i < n + 1 := by simpa [add_comm] using hi
        obtain ⟨k, rfl⟩ : ∃ k, i = k + 1 := ⟨i - 1, by omega⟩
        rw [List.singleton_append, List.getD_cons_succ,
          List.getD_eq_getElem _ _ (by simp; omega), List.getElem_replicate, zero_mul]
    rw [this]
    constructor
    · intro h1
      field_simp at h1
      exact h1
    · intro h1
      rw [h1]
  · rw [if_neg h]

/-- Filters given by sections or by zeros and poles always count as IIR. -/
theorem C53_sections_are_iir {Z : Type} (s : Stored K Z) (h : s.sos ≠ none) :
    isIir s = .ok true := by
  unfold isIir
  rw [if_pos]
  cases hs : s.sos with
  | none => exact absurd hs h
  | some _ => rfl

/-- Disagreement: a section without recursive part has a finite impulse response, but the filter
counts as IIR. -/
theorem C53_fir_section_is_iir (zpk2sos : Unit → List (List ℚ)) :
    ∃ s, construct zpk2sos ⟨none, some [[1, 2, 3, 1, 0, 0]], none⟩ = .ok s ∧
      isIir s = .ok true ∧ SingleLeading ([1, 0, 0] : List ℚ) := by
  refine ⟨_, rfl, rfl, by decide +kernel, fun i hi => ?_⟩
  rcases i with _ | _ | _ | i <;> simp at hi ⊢

/-- Disagreement: a denominator of more than one coefficient keeps its trailing zeros, and the
order counts them. -/
theorem C53_order_counts_trailing_zeros (zpk2sos : Unit → List (List ℚ)) :
    ∃ s, construct zpk2sos ⟨some ([1], [1, 1/2, 0, 0]), none, none⟩ = .ok s ∧
      order (fun _ => 0) s = .ok 3 :=
  ⟨⟨some ([1], [1, 1/2, 0, 0]), none, none⟩, by
    have : setBa ([1] : List ℚ) [1, 1/2, 0, 0] = ([1], [1, 1/2, 0, 0]) := by decide +kernel
    show Except.ok _ = _
    rw [this], by decide +kernel⟩

/-- Without trailing zeros the order of a filter given by `b` and `a` is the larger degree. -/
theorem C53_order_ba {Z : Type} (zpk2sos : Z → List (List K)) (zo : Z → ℕ) (b a : List K)
    (hb : b ≠ []) (ha : ∀ c, a.getLast? = some c → c ≠ 0) (hne : a ≠ []) :
    ∃ s, construct zpk2sos ⟨some (b, a), none, none⟩ = .ok s ∧
      order zo s = .ok (max (b.length - 1) (a.length - 1)) := by
  refine ⟨⟨some (setBa b a), none, none⟩, rfl, ?_⟩
  have hbl := List.length_pos_of_ne_nil hb
  have hal := List.length_pos_of_ne_nil hne
  have h1 : (setBa b a).1.length = b.length ∧ (setBa b a).2.length = a.length := by
    unfold setBa
    by_cases h : (trimBack a).length = 1
    · rw [if_pos h]
      refine ⟨by simp, ?_⟩
      obtain ⟨n, hn, -⟩ := trimBack_spec a
      rcases n with _ | n
      · rw [List.replicate_zero, List.append_nil] at hn
        rw [List.length_map, ← hn]
      · exfalso
        refine ha 0 ?_ rfl
        rw [hn, List.replicate_succ', ← List.append_assoc]
        simp
    · rw [if_neg h]
      exact ⟨rfl, rfl⟩
  have h2 : order zo (⟨some (setBa b a), none, none⟩ : Stored K Z) =
      .ok (max (setBa b a).1.length (setBa b a).2.length - 1) := rfl
  rw [h2, h1.1, h1.2]
  congr 1
  omega

/-- With sections: every section counts two, or one if it has no second order coefficients. -/
theorem C53_order_sos {Z : Type} (zo : Z → ℕ) (sos : List (List K)) :
    order zo (⟨none, some sos, none⟩ : Stored K Z) =
      .ok ((sos.map fun r => if r.getD 2 0 = 0 ∧ r.getD 5 0 = 0 then 1 else 2).sum) := by
  show Except.ok _ = _
  congr 1
  have : (sos.map fun r => if r.getD 2 0 = 0 ∧ r.getD 5 0 = 0 then 1 else 2).sum +
      sos.countP (fun r => r.getD 2 0 = 0 ∧ r.getD 5 0 = 0) = sos.length * 2 := by
    induction sos with
    | nil => rfl
    | cons r sos ih =>
      rw [List.map_cons, List.sum_cons, List.countP_cons, List.length_cons]
      by_cases h : r.getD 2 0 = 0 ∧ r.getD 5 0 = 0
      · simp only [h, and_self, decide_true, if_true]
        omega
      · simp only [h, decide_false, Bool.false_eq_true, if_false]
        omega
  omega

/-- Concrete cases: `a = [2, 0]` is FIR and normalised, `a = [2, 1]` is not. -/
example : setBa ([4, 6] : List ℚ) [2, 0] = ([2, 3], [1]) ∧
    setBa ([4, 6] : List ℚ) [2, 1] = ([4, 6], [2, 1]) := by
  decide +kernel

end Verif.FilterCoeffs
