import Verif.Model.IIRFilter
import Verif.Lemmas.Realtime
import Mathlib.Tactic.Ring
import Mathlib.Tactic.FieldSimp
import Mathlib.Tactic.LinearCombination
import Mathlib.Data.List.GetD
import Mathlib.Algebra.BigOperators.Field

/-! Invariant of the transposed direct form II (used for C02). -/

namespace Verif.IIRFilter

variable {K : Type} [Field K]

theorem loop_apply (b a : List K) (x y : K) (ch : ℕ) (buf : ℕ → ℕ → K) (n r c : ℕ) :
    loop b a x y ch buf n r c =
      if c = ch ∧ r < n then
        x * b.getD (r + 1) 0 - y * a.getD (r + 1) 0 + buf (r + 1) ch
      else buf r c := by
  induction n generalizing r c with
  | zero => simp [loop]
  | succ n ih =>
    simp only [loop, write]
    by_cases h : r = n ∧ c = ch
    · obtain ⟨rfl, rfl⟩ := h
      simp [ih]
    · simp only [h, if_false, ih]
      by_cases hc : c = ch
      · subst hc
        have : r ≠ n := fun h' => h ⟨h', rfl⟩
        by_cases hr : r < n
        · simp [hr, Nat.lt_succ_of_lt hr]
        · have : ¬ r < n + 1 := by omega
          simp [hr, this]
      · simp [hc]

/-- Invariant: row `i` of channel `ch` is the part of the difference equation that
refers to samples already seen. -/
def Inv (b a : List K) (order : ℕ) (s : State K) (ch : ℕ) (l : List (K × K)) : Prop :=
  ∀ i, i < order → s.buf i ch =
    tapSum (b.drop (i + 1)) (l.map Prod.fst) - tapSum (a.drop (i + 1)) (l.map Prod.snd)

theorem tapSum_drop (b : List K) (i : ℕ) (hi : i < b.length) (x : K) (xs : List K) :
    tapSum (b.drop i) (x :: xs) = b.getD i 0 * x + tapSum (b.drop (i + 1)) xs := by
  rw [List.drop_eq_getElem_cons hi, tapSum_cons]
  rw [List.getD_eq_getElem _ _ hi]

theorem process_inv (b a : List K) (order : ℕ) (hb : b.length = order + 1)
    (ha : a.length = order + 1) (s : State K) (x : K) (ch : ℕ) (l : List (K × K))
    (ho : 0 < order) (hch : ch < s.nCh) (hinv : Inv b a order s ch l) :
    ∃ y, (process b a order s x ch).1 = .ok y ∧
      y = tapSum b (x :: l.map Prod.fst) - tapSum (a.drop 1) (l.map Prod.snd) ∧
      Inv b a order (process b a order s x ch).2 ch ((x, y) :: l) := by
  have h0 : ¬ (order = 0 ∨ s.nCh ≤ ch) := by omega
  refine ⟨b.getD 0 0 * x + s.buf 0 ch, by simp [process, h0], ?_, ?_⟩
  · rw [hinv 0 ho]
    have := tapSum_drop b 0 (by omega) x (l.map Prod.fst)
    rw [List.drop_zero] at this
    rw [this]; ring
  · intro i hi
    simp only [process, h0, if_false, write, and_true, loop_apply, true_and]
    set y := b.getD 0 0 * x + s.buf 0 ch with hy
    rw [List.map_cons, List.map_cons, tapSum_drop b (i + 1) (by omega),
      tapSum_drop a (i + 1) (by omega)]
    by_cases hil : i = order - 1
    · subst hil
      have e1 : b.length - 1 = order - 1 + 1 := by omega
      have e2 : a.length - 1 = order - 1 + 1 := by omega
      have e3 : b.drop (order - 1 + 1 + 1) = [] := List.drop_eq_nil_of_le (by omega)
      have e4 : a.drop (order - 1 + 1 + 1) = [] := List.drop_eq_nil_of_le (by omega)
      simp only [if_true, e1, e2, e3, e4, tapSum_nil]
      ring
    · have hlt : i < order - 1 := by omega
      simp only [hil, if_false, hlt, if_true]
      rw [hinv (i + 1) (by omega)]
      ring

theorem process_other (b a : List K) (order : ℕ) (s : State K) (x : K) (c ch : ℕ)
    (hne : ch ≠ c) (l : List (K × K)) (hinv : Inv b a order s ch l) :
    Inv b a order (process b a order s x c).2 ch l := by
  intro i hi
  unfold process
  split
  · exact hinv i hi
  · simp [write, loop_apply, hne, hinv i hi]

theorem process_nCh (b a : List K) (order : ℕ) (s : State K) (x : K) (c : ℕ) :
    (process b a order s x c).2.nCh = s.nCh := by
  unfold process; split <;> rfl

theorem coeffs_length (b a : List K) (h : 1 ≤ order b a) :
    (coeffs b a).1.length = order b a + 1 ∧ (coeffs b a).2.length = order b a + 1 := by
  unfold order at *
  constructor <;> simp [coeffs, padTo, normalise, order] <;> omega

theorem getD_padTo (n : ℕ) (v : List K) (i : ℕ) : (padTo n v).getD i 0 = v.getD i 0 := by
  unfold padTo
  by_cases h : i < v.length
  · rw [List.getD_append _ _ _ _ h]
  · rw [List.getD_append_right _ _ _ _ (by omega), List.getD_eq_default (n := i) (l := v) _ (by omega)]
    by_cases h' : i - v.length < n - v.length
    · rw [List.getD_replicate _ h']
    · rw [List.getD_eq_default _ _ (by simpa using h')]

theorem tapSum_eq_of_getD (b b' xs : List K) (h : ∀ i, b.getD i 0 = b'.getD i 0) :
    tapSum b xs = tapSum b' xs := by
  have key : ∀ (c : List K) (n : ℕ), c.length ≤ n →
      tapSum c xs = ∑ i ∈ Finset.range n, c.getD i 0 * xs.getD i 0 := by
    intro c n hn
    unfold tapSum
    refine Finset.sum_subset (by simpa using hn) fun i _ hi => ?_
    rw [List.getD_eq_default _ _ (by simpa using hi), zero_mul]
  rw [key b (max b.length b'.length) (by omega), key b' (max b.length b'.length) (by omega)]
  exact Finset.sum_congr rfl fun i _ => by rw [h i]

theorem getD_map_div (b : List K) (c : K) (i : ℕ) :
    (b.map (· / c)).getD i 0 = b.getD i 0 / c := by
  by_cases h : i < b.length
  · rw [List.getD_eq_getElem _ _ (by simpa using h), List.getD_eq_getElem _ _ h]; simp
  · rw [List.getD_eq_default _ _ (by simpa using h), List.getD_eq_default _ _ (by omega)]; simp

theorem tapSum_map_div (b : List K) (c : K) (xs : List K) :
    tapSum (b.map (· / c)) xs = tapSum b xs / c := by
  unfold tapSum
  rw [List.length_map, Finset.sum_div]
  exact Finset.sum_congr rfl fun i _ => by rw [getD_map_div]; ring

theorem inv_after (b a : List K) (ho : 1 ≤ order b a) (h : List (Op K)) :
    ((filter b a).after h : State K).nCh = nChannels h ∧
    ∀ ch, Inv (coeffs b a).1 (coeffs b a).2 (order b a) ((filter b a).after h) ch
        ((filter b a).log ch h) ∧
      ((filter b a).log ch h).map Prod.fst = pastInputs ch h := by
  obtain ⟨hb, ha⟩ := coeffs_length b a ho
  induction h using List.reverseRecOn with
  | nil =>
    refine ⟨rfl, fun ch => ⟨fun i _ => ?_, rfl⟩⟩
    simp [RTFilter.after, filter, RTFilter.log_nil, tapSum_nil_right]
  | append_singleton h op ih =>
    obtain ⟨ihn, ihc⟩ := ih
    rw [RTFilter.after_snoc, nChannels_snoc]
    cases op with
    | reset =>
      refine ⟨ihn, fun ch => ?_⟩
      rw [pastInputs_snoc, RTFilter.log_snoc]
      exact ⟨fun i _ => by simp [RTFilter.exec, filter, reset, tapSum_nil_right], rfl⟩
    | setChannels m =>
      refine ⟨rfl, fun ch => ?_⟩
      rw [pastInputs_snoc, RTFilter.log_snoc]
      exact ⟨fun i _ => by simp [RTFilter.exec, filter, setChannels, tapSum_nil_right], rfl⟩
    | sample x c =>
      refine ⟨by rw [← ihn]; exact process_nCh _ _ _ _ _ _, fun ch => ?_⟩
      rw [pastInputs_snoc, RTFilter.log_snoc]
      set s : State K := (filter b a).after h with hs
      show Inv _ _ _ (process (coeffs b a).1 (coeffs b a).2 (order b a) s x c).2 ch _ ∧ _
      by_cases hcc : c = ch
      · subst hcc
        simp only [if_true, true_and]
        by_cases hc : c < s.nCh
        · obtain ⟨y, hy, _, hinv⟩ := process_inv _ _ _ hb ha s x c _ ho hc (ihc c).1
          have hans : (filter b a).answer h x c = .ok y := hy
          rw [hans]
          have : c < nChannels h := by rw [← ihn]; exact hc
          simp only [this, if_true]
          exact ⟨hinv, by simp [(ihc c).2]⟩
        · have hp : process (coeffs b a).1 (coeffs b a).2 (order b a) s x c
              = (.error .indexError, s) := by
            simp [process, show s.nCh ≤ c by omega]
          have hans : (filter b a).answer h x c = .error .indexError := by
            show (process _ _ _ s x c).1 = _
            rw [hp]
          rw [hans, hp]
          have : ¬ c < nChannels h := by rw [← ihn]; exact hc
          simp only [this, if_false]
          exact ihc c
      · simp only [hcc, false_and, if_false]
        exact ⟨process_other _ _ _ _ _ _ _ (fun h => hcc h.symm) _ (ihc ch).1, (ihc ch).2⟩

end Verif.IIRFilter
