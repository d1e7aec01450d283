import Verif.Props.C139
import Verif.Props.C23Plain

/-!
# C139 (continued): the values of the synthesised signal and windows that are too short
-/

namespace Verif.Lpc

open Verif.AR Verif.Framing
open Verif.LFilter (getD_map_range)
open Verif.SignalData (padTrim padTrim_length padTrim_end)

/-- Sum of the frames at sample `j`, each times the window. -/
noncomputable def windowedSum (w : List ℝ) (s : ℕ → List ℝ) (step n j : ℕ) : ℝ :=
  ∑ k ∈ Finset.range n,
    if k * step ≤ j ∧ j < k * step + w.length then w.getD (j - k * step) 0 * (s k).getD (j - k * step) 0
    else 0

/-- Frames that are as long as the window are put together by weighted overlap and add. -/
theorem reconstruct_frames (w : List ℝ) (s : ℕ → List ℝ) (step n L : ℕ) (hn : 0 < n)
    (hw : 0 < w.length) (hs : ∀ k < n, (s k).length = w.length) (thr tiny : ℝ) (ht : tiny < thr) :
    ∃ y, reconstruct ((List.range n).map s) w.length step (some w) (some L) (some thr) tiny = .ok y ∧
      y.length = L ∧ ∀ j < L, y.getD j 0 = windowedSum w s step n j /
        max (squaredWindows w step n j) thr := by
  have hstep : step ≤ step * n := Nat.le_mul_of_pos_right _ hn
  set total := step * n + w.length - step with htotal
  set fr := ((List.range n).map s).map (applyWindow w) with hfr
  have hfrl : fr.length = n := by simp [hfr]
  obtain ⟨henvlen, henv⟩ := envelope_eq w total step n
  obtain ⟨htdlen, htdval⟩ := overlapAdd (fun k => fr.getD k []) step total n
  have hfk : ∀ k < n, fr.getD k [] = (List.range w.length).map fun i =>
      w.getD i 0 * (s k).getD i 0 := by
    intro k hk
    rw [List.getD_eq_getElem _ _ (by rw [hfrl]; exact hk)]
    simp only [hfr, List.getElem_map, List.getElem_range]
    unfold applyWindow
    rw [hs k hk]
    refine List.map_congr_left fun i hi => ?_
    have hi' := List.mem_range.mp hi
    split_ifs with h1
    · rw [show i = 0 by omega, mul_comm]
    · rw [mul_comm]
  have hsum : ∀ j < total, ((List.range n).foldl (fun td k => addAt td (k * step) (fr.getD k []))
      (List.replicate total 0)).getD j 0 = windowedSum w s step n j := by
    intro j hj
    rw [htdval j hj]
    unfold windowedSum
    refine Finset.sum_congr rfl fun k hk => ?_
    have hk' := Finset.mem_range.mp hk
    rw [hfk k hk', List.length_map, List.length_range]
    by_cases h : k * step ≤ j ∧ j < k * step + w.length
    · rw [if_pos h, if_pos h, getD_map_range, if_pos (by omega)]
    · rw [if_neg h, if_neg h]
  refine ⟨_, ?_, padTrim_length ((List.range total).map (fun j =>
    if ((envelope w total step n true).map fun e => max e thr).getD j 0 > tiny
    then ((List.range n).foldl (fun td k => addAt td (k * step) (fr.getD k []))
      (List.replicate total 0)).getD j 0 /
        ((envelope w total step n true).map fun e => max e thr).getD j 0
    else ((List.range n).foldl (fun td k => addAt td (k * step) (fr.getD k []))
      (List.replicate total 0)).getD j 0)) L true, ?_⟩
  · unfold reconstruct
    simp only [List.length_map, List.length_range]
    rw [if_neg (by simp), if_neg (by omega), if_neg (by omega)]
  · intro j hj
    rw [padTrim_end _ _ _ hj, getD_map_range]
    by_cases hjt : j < total
    · rw [if_pos hjt]
      have he : ((envelope w total step n true).map fun e => max e thr).getD j 0 =
          max (squaredWindows w step n j) thr := by
        rw [← henv j hjt, List.getD_eq_getElem _ _ (by simpa [henvlen] using hjt),
          List.getD_eq_getElem _ _ (by simpa [henvlen] using hjt)]
        simp
      rw [he, if_pos (lt_of_lt_of_le ht (le_max_right _ _)), hsum j hjt]
    · rw [if_neg hjt]
      have : windowedSum w s step n j = 0 := by
        unfold windowedSum
        refine Finset.sum_eq_zero fun k hk => ?_
        have hk' := Finset.mem_range.mp hk
        rw [if_neg]
        rintro ⟨_, h2⟩
        have h3 : (k + 1) * step ≤ n * step := Nat.mul_le_mul_right _ (by omega)
        have h5 : n * step = step * n := Nat.mul_comm _ _
        have h6 : (k + 1) * step = k * step + step := by ring
        omega
      rw [this, zero_div]

theorem synthFrame_length (W : ℕ) (g : ℕ → ℝ) (r : Option (List ℝ × ℝ)) :
    (synthFrame W g r).length = W := by
  cases r with
  | none => simp [synthFrame]
  | some r => simp [synthFrame, Bank.lfilter_length]

/-- **C139**: the synthesised signal is made of the coded frames by weighted overlap and add.  Each of
them is the response of the all-pole filter with the coefficients of the frame to the random numbers of
the frame times the root of its variance. -/
theorem C139_synthesis_values (x w : List ℝ) (order : ℕ) (hop : Option ℕ) (eps tiny : ℝ)
    (g : ℕ → ℕ → ℝ) (hh : 0 < stepOf w hop) (h0 : 1 ≤ order) (ho : order < w.length) (hx : x ≠ [])
    (ht : tiny < 1e-4) :
    ∃ l y, ∃ s : ℕ → List ℝ, lpc x w order false false hop eps tiny g = .ok (.coefficients l) ∧
      lpc x w order true false hop eps tiny g = .ok (.signal y) ∧
      (∀ k a E, l.getD k none = some (a, E) → k < l.length →
        Polyphase.Responds [1] a ((List.range w.length).map fun i => √E * g k i) (s k)) ∧
      ∀ j v, y.getD j none = some v → v = windowedSum w s (stepOf w hop) l.length j /
        max (squaredWindows w (stepOf w hop) l.length j) 1e-4 := by
  obtain ⟨n, h1, h2, e⟩ := lpc_yw x w order hop eps tiny g hh h0 ho
  obtain ⟨l', hl', -, hv⟩ := C139_yule_walker x w order hop eps tiny g hh h0 ho
  have hL := List.length_pos_of_ne_nil hx
  have hn0 : 0 < n := by
    rcases Nat.eq_zero_or_pos n with rfl | h
    · omega
    · exact h
  have efalse := e false
  have etrue := e true
  rw [if_neg (by simp)] at efalse
  rw [if_pos rfl] at etrue
  set est := (List.range n).map fun k => estimate order (piece x w (stepOf w hop) k) with hest
  have hel : est.length = n := by simp [hest]
  have hll : est = l' := by
    rw [efalse] at hl'
    injection hl' with hl'
    injection hl' with hl'
  obtain ⟨y, hy, hyl, hyv⟩ := reconstruct_frames w
    (fun k => synthFrame w.length (g k) (est.getD k none)) (stepOf w hop) n x.length hn0 (by omega)
    (fun k _ => synthFrame_length _ _ _) 1e-4 tiny ht
  have hsyn : synthesis w (stepOf w hop) x.length tiny g est = .ok ((List.range y.length).map fun j =>
      if ∃ k < est.length, est.getD k none = none ∧ k * stepOf w hop ≤ j ∧
        j < k * stepOf w hop + w.length then none else some (y.getD j 0)) := by
    unfold synthesis
    dsimp only
    rw [hel, hy]
  rw [hsyn] at etrue
  refine ⟨est, _, fun k => synthFrame w.length (g k) (est.getD k none), efalse, etrue, ?_, ?_⟩
  · intro k a E hk hkl
    have ha : a.getD 0 0 ≠ 0 := by
      rw [hll] at hk hkl
      obtain ⟨c1, c2⟩ := hv k hkl
      by_cases hc : ∃ i < w.length, x.getD (k * stepOf w hop + i) 0 * w.getD i 0 ≠ 0
      · obtain ⟨a', E', ha', -, ha0, -⟩ := c1 hc
        rw [hk] at ha'
        have : a = a' := by
          injection ha' with ha'
          exact (Prod.ext_iff.mp ha').1
        rw [this, ha0]
        exact one_ne_zero
      · push Not at hc
        rw [c2 hc] at hk
        cases hk
    dsimp only
    rw [hk]
    exact Polyphase.responds_lfilter [1] a _ ha
  · intro j v hj
    by_cases hjl : j < x.length
    · rw [List.getD_eq_getElem _ _ (by simpa [hyl] using hjl), List.getElem_map,
        List.getElem_range] at hj
      split_ifs at hj with hc
      injection hj with hj
      rw [← hj, hyv j hjl, hel]
    · rw [List.getD_eq_default _ _ (by simp [hyl]; omega)] at hj
      cases hj

/-- **C139**: a window with no more samples than the order (but more than one) is refused by the method
of Yule and Walker. -/
theorem C139_short_window (x w : List ℝ) (order : ℕ) (s : Bool) (hop : Option ℕ) (eps tiny : ℝ)
    (g : ℕ → ℕ → ℝ) (hh : 0 < stepOf w hop) (h1 : w.length ≠ 1) (ho : w.length ≤ order)
    (hx : x ≠ []) : lpc x w order s false hop eps tiny g = .error .valueError := by
  obtain ⟨n, td, htd, hp, -, h2⟩ := pieces x w (stepOf w hop) hh
  have hL := List.length_pos_of_ne_nil hx
  obtain ⟨m, rfl⟩ : ∃ m, n = m + 1 := by
    rcases Nat.eq_zero_or_pos n with rfl | h
    · omega
    · exact ⟨n - 1, by omega⟩
  rw [lpc_unfold, htd]
  dsimp only
  rw [hp, List.range_succ_eq_map, List.map_cons, List.mapM_cons]
  have : ywFrame order (piece x w (stepOf w hop) 0) = .error .valueError := by
    unfold ywFrame
    rw [if_pos (by rw [piece_length]; omega)]
  simp only [Bool.false_eq_true, if_false, this]
  rfl

example : (0 : ℝ) < 1e-4 ∧ 0 < stepOf [0, 1, 1, 1] none ∧ 1 < ([0, 1, 1, 1] : List ℝ).length ∧
    ([0, 1, 1, 1] : List ℝ).length ≤ 4 := by
  refine ⟨by norm_num, by simp [stepOf], by simp, by simp⟩

end Verif.Lpc
