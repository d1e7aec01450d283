import Verif.Lemmas.LFilter
import Mathlib.Algebra.Field.Rat
import Mathlib.Tactic.NormNum

/-!
# C12: streaming with `filter_signal(..., activate_zi=True)`

The property is false: the state is stored with the axes (order, channels) but read with
the axes (channels, order).  It holds only for first-order filters on one channel.
-/

namespace Verif.LFilter

variable {K : Type} [Field K]

/-- The block routine does not care how a signal is cut, and keeps the length of the
state vector. -/
def BlockFilter.Cuts (F : BlockFilter K) : Prop :=
  ∀ z : List K, z.length = F.order → F.run z [] = ([], z) ∧ ∀ x1 x2 : List K,
    F.run z (x1 ++ x2) = ((F.run z x1).1 ++ (F.run (F.run z x1).2 x2).1,
      (F.run (F.run z x1).2 x2).2) ∧ (F.run z x1).2.length = F.order

/-- Both block routines used by the toolbox have this property. -/
theorem C12_block_routines_cut (b a zi0 : List K) (hb : b ≠ []) :
    (firFilter b zi0).Cuts ∧ (iirFilter b a zi0).Cuts := by
  refine ⟨fun z hz => ⟨?_, fun x1 x2 => fir_cut b zi0 hb z x1 x2 hz⟩,
    fun z hz => ⟨rfl, fun x1 x2 => ⟨iir_cut b a _ z x1 x2, iir_length b a _ z x1 hz⟩⟩⟩
  have hL : 0 < b.length := List.length_pos_of_ne_nil hb
  have hz' : z.length = b.length - 1 := hz
  have h : addHead (fullConv b []) z = z := by
    apply ext_getD
    · rw [length_addHead, length_fullConv, hz']; simp
    · intro k _
      rw [addHead_getD _ _ (by rw [length_fullConv, hz']; simp), fullConv_getD]
      simp
  simp [firFilter, h]

theorem list_of_length_one (z : List K) (h : z.length = 1) : [z.getD 0 0] = z := by
  match z, h with
  | [a], _ => rfl

theorem call_mono (F : BlockFilter K) (hord : F.order = 1) (v : K) (A : Arr K) (hr : A.rows = 1)
    (hcl : A.cols = 1) (hv : A.val 0 0 = v) (x : List K) :
    ∃ A' : Arr K, A'.rows = 1 ∧ A'.cols = 1 ∧ A'.val 0 0 = (F.run [v] x).2.getD 0 0 ∧
      filterSignalZi F (some A) [x] = (.ok [(F.run [v] x).1], some A') := by
  refine ⟨⟨F.order, 1, fun r c => (F.run (A.T.col c) ([x].getD c [])).2.getD r 0⟩, hord, rfl, ?_, ?_⟩
  · simp [Arr.T, Arr.col, hcl, List.range_succ, hv]
  · simp [filterSignalZi, Arr.T, Arr.col, hord, List.range_succ, hr, hcl, hv]

theorem stream_mono (F : BlockFilter K) (hF : F.Cuts) (hord : F.order = 1) (xs : List (List K)) :
    ∀ v : K, ∃ ys : List (List K),
      (∀ A : Arr K, A.rows = 1 → A.cols = 1 → A.val 0 0 = v →
        (stream F (some A) (xs.map fun b => [b])).1 = ys.map (fun y => .ok [y])) ∧
      (F.run [v] xs.flatten).1 = ys.flatten := by
  induction xs with
  | nil =>
    intro v
    refine ⟨[], fun _ _ _ _ => rfl, ?_⟩
    rw [List.flatten_nil, (hF [v] (by simp [hord])).1]
  | cons x xs ih =>
    intro v
    obtain ⟨hc, hl⟩ := (hF [v] (by simp [hord])).2 x xs.flatten
    obtain ⟨ys, h1, h2⟩ := ih ((F.run [v] x).2.getD 0 0)
    rw [list_of_length_one _ (by rw [hl, hord])] at h2
    refine ⟨(F.run [v] x).1 :: ys, fun A hr hcl hv => ?_, ?_⟩
    · obtain ⟨A', hr', hcl', hv', hA⟩ := call_mono F hord v A hr hcl hv x
      simp only [List.map_cons, stream, hA]
      rw [h1 A' hr' hcl' hv']
    · rw [List.flatten_cons, hc, List.flatten_cons, h2]

/-- **C12**, the case that works: first-order filter, one channel.  Any nonempty
sequence of calls on consecutive blocks returns the pieces of what one call on the whole
signal returns. Missing: all other orders and channel counts, where the property
is false. -/
theorem C12_first_order_mono_partial (F : BlockFilter K) (hF : F.Cuts) (hord : F.order = 1)
    (xs : List (List K)) :
    ∃ ys : List (List K),
      (stream F none (xs.map fun b => [b])).1 = ys.map (fun y => .ok [y]) ∧
      (filterSignalZi F none [xs.flatten]).1 = .ok [ys.flatten] := by
  have hnone : ∀ x : List K, filterSignalZi F none [x] = filterSignalZi F (some (initZi F 1)) [x] := by
    intro x
    simp [filterSignalZi, initZi]
  obtain ⟨ys, h1, h2⟩ := stream_mono F hF hord xs (F.zi0.getD 0 0)
  refine ⟨ys, ?_, ?_⟩
  · rw [← h1 (initZi F 1) rfl hord rfl]
    cases xs with
    | nil => rfl
    | cons x xs => simp only [List.map_cons, stream, hnone]
  · obtain ⟨A', -, -, -, hA⟩ := call_mono F hord (F.zi0.getD 0 0) (initZi F 1) rfl hord rfl xs.flatten
    rw [hnone, hA, h2]

/-- **C12** is false whenever the order differs from the number of channels: every call
starts again from the initial state, whatever was filtered before. -/
theorem C12_state_lost_false (F : BlockFilter K) (n : ℕ) (hn : F.order ≠ n)
    (calls : List (List (List K))) (hcalls : ∀ xs ∈ calls, xs.length = n) :
    (stream F none calls).1 = calls.map fun xs => (filterSignalZi F none xs).1 := by
  have key : ∀ (calls : List (List (List K))) (zi : Option (Arr K)),
      (∀ xs ∈ calls, xs.length = n) → (zi = none ∨ ∃ A, zi = some A ∧ A.rows = F.order) →
      (stream F zi calls).1 = calls.map fun xs => (filterSignalZi F none xs).1 := by
    intro calls
    induction calls with
    | nil => intros; rfl
    | cons xs calls ih =>
      intro zi hc hzi
      have hx : xs.length = n := hc xs (by simp)
      have hsame : filterSignalZi F zi xs = filterSignalZi F none xs := by
        rcases hzi with rfl | ⟨A, rfl, hA⟩
        · rfl
        · have hne : ¬ A.rows = xs.length := by rw [hA, hx]; exact hn
          simp only [filterSignalZi, hne, if_false]
      have hres : ∃ A, (filterSignalZi F none xs).2 = some A ∧ A.rows = F.order := by
        simp [filterSignalZi, initZi, Arr.T]
      simp only [stream, List.map_cons, hsame]
      rw [ih _ (fun y hy => hc y (by simp [hy])) (Or.inr hres)]
  exact key calls none hcalls (Or.inl rfl)

/-- **C12**, concrete counterexample: the FIR filter `[1, 1, 1]` (steady-state
initial values `[2, 1]`) on one channel.  Filtering `[0]` and then `[1]` gives 2, 3;
filtering `[0, 1]` gives 2, 2. -/
theorem C12_counterexample_false :
    (stream (firFilter ([1, 1, 1] : List ℚ) [2, 1]) none [[[0]], [[1]]]).1
        = [.ok [[2]], .ok [[3]]] ∧
    (filterSignalZi (firFilter ([1, 1, 1] : List ℚ) [2, 1]) none [[0, 1]]).1
        = .ok [[2, 2]] := by
  constructor
  · rw [C12_state_lost_false _ 1 (by simp [firFilter]) _ (by simp)]
    norm_num [filterSignalZi, initZi, Arr.T, Arr.col, firFilter, List.range_succ, addHead, fullConv,
      Finset.sum_range_succ]
  · norm_num [filterSignalZi, initZi, Arr.T, Arr.col, firFilter, List.range_succ, addHead, fullConv,
      Finset.sum_range_succ]

/-- **C12**, order equal to the number of channels: the second call filters channel `c`
starting from the `c`-th state variables of all the channels. -/
theorem C12_state_transposed_false (F : BlockFilter K) (n : ℕ) (hn : F.order = n)
    (xs xs' : List (List K)) (h1 : xs.length = n) (h2 : xs'.length = n) :
    (filterSignalZi F (filterSignalZi F none xs).2 xs').1 =
      .ok ((List.range n).map fun c =>
        (F.run ((List.range n).map fun r =>
            (F.run ((List.range n).map fun i => F.zi0.getD i 0) (xs.getD r [])).2.getD c 0)
          (xs'.getD c [])).1) := by
  simp [filterSignalZi, initZi, Arr.T, Arr.col, h1, h2, hn]

omit [Field K] in
/-- **C12** with second-order sections: if the number of sections differs from the number
of channels, every call starts again from the initial state. -/
theorem C12_sos_state_lost_false (F : SosFilter K) (n : ℕ) (hn : F.nSections ≠ n)
    (calls : List (List (List K))) (hcalls : ∀ xs ∈ calls, xs.length = n) :
    (streamSos F none calls).1 = calls.map fun xs => (filterSignalZiSos F none xs).1 := by
  have key : ∀ (calls : List (List (List K))) (zi : Option (Arr3 K)),
      (∀ xs ∈ calls, xs.length = n) → (zi = none ∨ ∃ A, zi = some A ∧ A.d0 = F.nSections) →
      (streamSos F zi calls).1 = calls.map fun xs => (filterSignalZiSos F none xs).1 := by
    intro calls
    induction calls with
    | nil => intros; rfl
    | cons xs calls ih =>
      intro zi hc hzi
      have hx : xs.length = n := hc xs (by simp)
      have hsame : filterSignalZiSos F zi xs = filterSignalZiSos F none xs := by
        rcases hzi with rfl | ⟨A, rfl, hA⟩
        · rfl
        · have hne : ¬ A.d0 = xs.length := by rw [hA, hx]; exact hn
          simp only [filterSignalZiSos, hne, if_false]
      have hres : ∃ A, (filterSignalZiSos F none xs).2 = some A ∧ A.d0 = F.nSections := by
        simp [filterSignalZiSos, initZiSos, Arr3.moveFirstToLast]
      simp only [streamSos, List.map_cons, hsame]
      rw [ih _ (fun y hy => hc y (by simp [hy])) (Or.inr hres)]
  exact key calls none hcalls (Or.inl rfl)

omit [Field K] in
/-- **C12** with second-order sections: if the number of sections equals the number of
channels and is not 2 (e.g. one section, one channel), the second call raises
ValueError. -/
theorem C12_sos_second_call_raises_false (F : SosFilter K) (n : ℕ) (hn : F.nSections = n)
    (h2 : n ≠ 2) (xs xs' : List (List K)) (h : xs.length = n) (h' : xs'.length = n) :
    (filterSignalZiSos F (filterSignalZiSos F none xs).2 xs').1 = .error .valueError := by
  simp [filterSignalZiSos, initZiSos, Arr3.moveFirstToLast, h, h', hn, Ne.symm h2]

/-- Hypotheses of the partial theorem: a first-order IIR filter. -/
example : (iirFilter ([1, 1] : List ℚ) [1, -1 / 2] [2]).Cuts ∧
    (iirFilter ([1, 1] : List ℚ) [1, -1 / 2] [2]).order = 1 :=
  ⟨(C12_block_routines_cut [1, 1] [1, -1 / 2] [2] (by simp)).2, rfl⟩

end Verif.LFilter
