import Verif.Props.C66

/-!
# C66: analytic signals of multiband signals
-/

namespace Verif.Props.C66

open Verif.SignalData Verif.Transforms Finset

theorem hilbertBands_spec (bands : List (State ℝ)) (hs : ∀ s ∈ bands, Shaped s) (todo : ℕ) :
    ∀ (cur : List (State ℝ)) (ind : ℕ), cur.length = bands.length → bands.length - ind = todo →
      (∀ i, ind ≤ i → cur[i]? = bands[i]?) →
      ∃ out, hilbertBands cur ind = .ok out ∧ out.length = bands.length ∧
        (∀ i < ind, out[i]? = cur[i]?) ∧
        ∀ i, ind ≤ i → ∀ s, bands[i]? = some s → ∃ y, hilbert s = .ok y ∧ out[i]? = some y := by
  induction todo with
  | zero =>
    intro cur ind hl ht hc
    refine ⟨cur, ?_, hl, fun _ _ => rfl, fun i hi s h => ?_⟩
    · unfold hilbertBands
      rw [dif_neg (by omega)]
    · have := (List.getElem?_eq_some_iff.1 h).1
      omega
  | succ todo ih =>
    intro cur ind hl ht hc
    have hind : ind < cur.length := by omega
    have hget : cur[ind] = bands[ind]'(by omega) := by
      have := hc ind le_rfl
      rw [List.getElem?_eq_getElem hind, List.getElem?_eq_getElem (by omega : ind < bands.length)] at this
      exact Option.some.inj this
    obtain ⟨y, hy, -⟩ := C66_signal_partial (bands[ind]'(by omega)) (hs _ (List.getElem_mem _))
    obtain ⟨out, h1, h2, h3, h4⟩ := ih (cur.set ind y) (ind + 1) (by simpa using hl) (by omega)
      (fun i hi => by rw [List.getElem?_set_ne (by omega)]; exact hc i (by omega))
    refine ⟨out, ?_, h2, fun i hi => ?_, fun i hi s hsi => ?_⟩
    · unfold hilbertBands
      rw [dif_pos hind, hget, hy]
      exact h1
    · rw [h3 i (by omega), List.getElem?_set_ne (by omega)]
    · rcases Nat.eq_or_lt_of_le hi with rfl | hlt
      · have hb := (List.getElem?_eq_some_iff.1 hsi).2
        refine ⟨y, hb ▸ hy, ?_⟩
        rw [h3 ind (by omega), List.getElem?_set_self hind]
      · exact h4 i (by omega) s hsi

/-- The analytic signal of a multiband signal consists of the analytic signals of its bands, in their order. -/
theorem C66_multiband (bands : List (State ℝ)) (hs : ∀ s ∈ bands, Shaped s) :
    ∃ out, hilbertMultiband bands = .ok out ∧ out.length = bands.length ∧
      ∀ (i : ℕ) (s : State ℝ), bands[i]? = some s → ∃ y, hilbert s = .ok y ∧ out[i]? = some y := by
  obtain ⟨out, h1, h2, -, h4⟩ := hilbertBands_spec bands hs bands.length bands 0 rfl (by omega) (fun _ _ => rfl)
  exact ⟨out, h1, h2, fun i s h => h4 i (Nat.zero_le _) s h⟩

/-- The analytic series of a sum is the sum of the analytic series: bands that add up to a signal have analytic
signals that add up to its analytic signal. -/
theorem C66_bands_add_up (N B : ℕ) (x : ℕ → ℕ → ℝ) (j : ℕ) :
    analytic N (fun n => ∑ b ∈ Finset.range B, x b n) j = ∑ b ∈ Finset.range B, analytic N (x b) j := by
  have hadd : ∀ u v : ℕ → ℝ, analytic N (fun n => u n + v n) j = analytic N u j + analytic N v j := by
    intro u v
    unfold analytic ifft
    rw [← add_div, ← Finset.sum_add_distrib]
    congr 1
    refine Finset.sum_congr rfl fun k _ => ?_
    rw [← add_mul]
    congr 1
    have hd : DFT.dft N (fun n => ((u n + v n : ℝ) : ℂ)) k =
        DFT.dft N (fun n => (u n : ℂ)) k + DFT.dft N (fun n => (v n : ℂ)) k := by
      unfold DFT.dft
      rw [← Finset.sum_add_distrib]
      exact Finset.sum_congr rfl fun n _ => by push_cast; ring
    unfold analyticBin
    rw [hd]
    split_ifs <;> ring
  have hzero : analytic N (fun _ => 0) j = 0 := by
    have := hadd (fun _ => 0) (fun _ => 0)
    simp only [add_zero] at this
    exact left_eq_add.1 this
  induction B with
  | zero => simpa using hzero
  | succ B ih =>
    simp only [Finset.sum_range_succ]
    rw [hadd, ih]

/-- The hypothesis is met by two bands of different lengths. -/
example : ∀ s ∈ ([⟨⟨4, 2, fun r _ => r⟩, none, false, 1⟩, ⟨⟨3, 2, fun r _ => r⟩, none, false, 1⟩] : List (State ℝ)),
    Shaped s := by
  intro s hs
  simp only [List.mem_cons, List.not_mem_nil, or_false] at hs
  rcases hs with rfl | rfl <;> simp [Shaped]

end Verif.Props.C66
