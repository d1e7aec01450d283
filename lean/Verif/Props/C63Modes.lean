import Verif.Props.C63
import Verif.Lemmas.ModeCount
import Mathlib.Analysis.SpecialFunctions.Integrals.Basic

/-!
# C63: the modal density and the modes

"The modal density summed up to a frequency is the volume and area terms of the number of modes, and it agrees with
the number of modes that `get_room_modes` returns up to this frequency: their ratio tends to 1 for high
frequencies, in every shoebox room."
-/

namespace Verif.Room

open Filter Topology

theorem mem_inside_iff (c : ℝ) (hc : 0 < c) (dims : Fin 3 → ℝ) (hd : ∀ i, 0 < dims i) (f : ℝ) (hf : 0 ≤ f)
    (n : ℕ × ℕ × ℕ) :
    n ∈ inside (fun i => c / (2 * dims i)) f ↔
      c / 2 * √((n.1 / dims 0) ^ 2 + (n.2.1 / dims 1) ^ 2 + (n.2.2 / dims 2) ^ 2) ≤ f := by
  have h0 := hd 0; have h1 := hd 1; have h2 := hd 2
  have he : (c / (2 * dims 0) * n.1) ^ 2 + (c / (2 * dims 1) * n.2.1) ^ 2 + (c / (2 * dims 2) * n.2.2) ^ 2 =
      (c / 2 * √((n.1 / dims 0) ^ 2 + (n.2.1 / dims 1) ^ 2 + (n.2.2 / dims 2) ^ 2)) ^ 2 := by
    rw [mul_pow (c / 2), Real.sq_sqrt (by positivity)]
    field_simp
  simp only [inside, Set.mem_ofPred_eq]
  rw [he]
  exact pow_le_pow_iff_left₀ (by positivity) hf two_ne_zero

/-- The number of modes up to a frequency, for sufficient orders. -/
theorem card_inside (c : ℝ) (hc : 0 < c) (dims : Fin 3 → ℝ) (hd : ∀ i, 0 < dims i) (f : ℝ) (hf : 0 ≤ f) (N : ℕ)
    (hN : ∀ i, 2 * f * dims i / c ≤ N) :
    Nat.card ↑(inside (fun i => c / (2 * dims i)) f) =
      ((modes N c dims).filter fun m => decide (m.1 ≤ f)).length + 1 := by
  classical
  obtain ⟨hmem, hnd, -⟩ := C63_modes N c dims
  set l := ((modes N c dims).filter fun m => decide (m.1 ≤ f)).map (·.2) with hl
  have hlnd : l.Nodup := hnd.sublist ((List.filter_sublist).map _)
  have hml : ∀ n, n ∈ l ↔ n ≠ (0, 0, 0) ∧ n ∈ inside (fun i => c / (2 * dims i)) f := by
    intro n
    rw [mem_inside_iff c hc dims hd f hf, hl, List.mem_map]
    constructor
    · rintro ⟨⟨g, m⟩, hm, rfl⟩
      obtain ⟨hm, hg⟩ := List.mem_filter.mp hm
      obtain ⟨⟨h0, -⟩, he⟩ := (hmem g m).mp hm
      refine ⟨h0, ?_⟩
      rw [← he]
      exact of_decide_eq_true hg
    · rintro ⟨h0, hn⟩
      have hb : ∀ (k : ℕ) (i : Fin 3), (k / dims i) ^ 2 ≤
          (n.1 / dims 0) ^ 2 + (n.2.1 / dims 1) ^ 2 + (n.2.2 / dims 2) ^ 2 → k ≤ N := by
        intro k i hk
        have hd' := hd i
        have h1 : (k / dims i : ℝ) ≤ √((n.1 / dims 0) ^ 2 + (n.2.1 / dims 1) ^ 2 + (n.2.2 / dims 2) ^ 2) :=
          Real.le_sqrt_of_sq_le hk
        have h2 : c / 2 * (k / dims i) ≤ f := le_trans (by gcongr) hn
        have h3 : (k : ℝ) ≤ 2 * f * dims i / c := by
          rw [le_div_iff₀ hc]
          have : c / 2 * (k / dims i) * (2 * dims i) ≤ f * (2 * dims i) := by gcongr
          have he : c / 2 * (k / dims i) * (2 * dims i) = k * c := by field_simp
          linarith
        exact_mod_cast h3.trans (hN i)
      refine ⟨(_, n), List.mem_filter.mpr ⟨(hmem _ n).mpr ⟨⟨h0, hb _ 0 ?_, hb _ 1 ?_, hb _ 2 ?_⟩, rfl⟩,
        decide_eq_true hn⟩, rfl⟩
      · have := sq_nonneg (n.2.1 / dims 1 : ℝ); have := sq_nonneg (n.2.2 / dims 2 : ℝ); linarith
      · have := sq_nonneg (n.1 / dims 0 : ℝ); have := sq_nonneg (n.2.2 / dims 2 : ℝ); linarith
      · have := sq_nonneg (n.1 / dims 0 : ℝ); have := sq_nonneg (n.2.1 / dims 1 : ℝ); linarith
  have hset : inside (fun i => c / (2 * dims i)) f = (((0, 0, 0) :: l).toFinset : Set (ℕ × ℕ × ℕ)) := by
    ext n
    simp only [List.coe_toFinset, List.mem_cons, Set.mem_ofPred_eq, hml]
    by_cases h0 : n = (0, 0, 0)
    · subst h0
      simp [inside, sq_nonneg]
    · simp [h0]
  rw [hset, Nat.card_coe_set_eq, Set.ncard_coe_finset, List.toFinset_card_of_nodup, List.length_cons, hl, List.length_map]
  exact List.nodup_cons.mpr ⟨fun h => ((hml _).mp h).1 rfl, hlnd⟩

/-- The modal density is the density of the modes: up to a frequency it sums up to the terms of the volume and of
the walls, and the ratio of the number of modes returned for sufficient orders to this sum tends to 1. -/
theorem C63_modal_density (dims : Fin 3 → ℝ) (c : ℝ) (hc : 0 < c) (t60 absorption : Option ℝ) (r : RoomData)
    (hr : shoebox (dims 0) (dims 1) (dims 2) t60 absorption = .ok r) :
    (∀ f, ∫ x in (0 : ℝ)..f, modalDensity r x c =
      4 * Real.pi * (dims 0 * dims 1 * dims 2) * f ^ 3 / (3 * c ^ 3) +
        Real.pi * (2 * (dims 0 * dims 1 + dims 1 * dims 2 + dims 0 * dims 2)) * f ^ 2 / (4 * c ^ 2)) ∧
    ∀ ε > 0, ∃ f0 : ℝ, ∀ f ≥ f0, ∀ N : ℕ, (∀ i, 2 * f * dims i / c ≤ N) →
      |(((modes N c dims).filter fun m => decide (m.1 ≤ f)).length : ℝ) /
        (∫ x in (0 : ℝ)..f, modalDensity r x c) - 1| < ε := by
  obtain ⟨hd, hV, hS⟩ : (∀ i, 0 < dims i) ∧ r.volume = dims 0 * dims 1 * dims 2 ∧
      r.area = 2 * (dims 0 * dims 1 + dims 1 * dims 2 + dims 0 * dims 2) := by
    unfold shoebox at hr
    by_cases h : 0 < dims 0 ∧ 0 < dims 1 ∧ 0 < dims 2
    · rw [if_pos h] at hr
      refine ⟨fun i => by fin_cases i; exacts [h.1, h.2.1, h.2.2], ?_⟩
      unfold construct at hr
      split_ifs at hr
      rcases t60 with _ | t <;> rcases absorption with _ | a <;> simp only at hr
      all_goals first
        | (split_ifs at hr; cases hr; exact ⟨rfl, by ring⟩)
        | cases hr
    · rw [if_neg h] at hr; cases hr
  have h0 := hd 0; have h1 := hd 1; have h2 := hd 2
  have hpi := Real.pi_pos
  have hint : ∀ f, ∫ x in (0 : ℝ)..f, modalDensity r x c =
      4 * Real.pi * (dims 0 * dims 1 * dims 2) * f ^ 3 / (3 * c ^ 3) +
        Real.pi * (2 * (dims 0 * dims 1 + dims 1 * dims 2 + dims 0 * dims 2)) * f ^ 2 / (4 * c ^ 2) := by
    intro f
    have he : ∀ x, modalDensity r x c = (4 * Real.pi * r.volume / c ^ 3) * x ^ 2 +
        (Real.pi * r.area / 2 / c ^ 2) * x := fun x => by unfold modalDensity; ring
    simp only [he]
    rw [intervalIntegral.integral_add (Continuous.intervalIntegrable (by fun_prop) _ _)
        (Continuous.intervalIntegrable (by fun_prop) _ _),
      intervalIntegral.integral_const_mul, intervalIntegral.integral_const_mul, integral_pow, integral_id, hV, hS]
    field_simp
    ring
  refine ⟨hint, fun ε hε => ?_⟩
  set V := dims 0 * dims 1 * dims 2
  set S := 2 * (dims 0 * dims 1 + dims 1 * dims 2 + dims 0 * dims 2)
  have hVp : 0 < V := by positivity
  have ht := inside_tendsto (fun i => c / (2 * dims i)) (fun i => by have := hd i; positivity)
  have hlim : Real.pi / 6 / (c / (2 * dims 0) * (c / (2 * dims 1)) * (c / (2 * dims 2))) =
      4 * Real.pi * V / (3 * c ^ 3) := by
    simp only [V]; field_simp; norm_num
  simp only [hlim] at ht
  have hinv3 : Tendsto (fun f : ℝ => 1 / f ^ 3) atTop (𝓝 0) := by
    simpa using (tendsto_pow_neg_atTop (𝕜 := ℝ) (n := 3) (by norm_num))
  have hinv1 : Tendsto (fun f : ℝ => Real.pi * S / (4 * c ^ 2) * f⁻¹) atTop (𝓝 0) := by
    have := (tendsto_inv_atTop_zero (𝕜 := ℝ)).const_mul (Real.pi * S / (4 * c ^ 2))
    rwa [mul_zero] at this
  have hq := (ht.sub hinv3).div ((tendsto_const_nhds (x := 4 * Real.pi * V / (3 * c ^ 3))).add hinv1)
    (by rw [add_zero]; positivity)
  rw [sub_zero, add_zero, div_self (by positivity)] at hq
  obtain ⟨f0, hf0⟩ := (Metric.tendsto_atTop.mp hq) ε hε
  refine ⟨max f0 1, fun f hf N hN => ?_⟩
  have hfp : 0 < f := lt_of_lt_of_le one_pos ((le_max_right _ _).trans hf)
  have := hf0 f ((le_max_left _ _).trans hf)
  rw [Real.dist_eq] at this
  convert this using 3
  rw [hint, Pi.div_apply, card_inside c hc dims hd f hfp.le N hN]
  push_cast
  field_simp
  ring

/-- A room of 8 m × 5 m × 3 m with a reverberation time of half a second. -/
example : ∃ r, shoebox 8 5 3 (some 0.5) none = .ok r := by
  unfold shoebox construct
  norm_num

end Verif.Room
