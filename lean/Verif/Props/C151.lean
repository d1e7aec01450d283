import Verif.Model.LatencyPhase
import Verif.Lemmas.DFT
import Verif.Props.C135
import Verif.Props.C46
import Verif.Props.C87
import Verif.Props.C140

/-!
# C151: phases without the latency do not depend on a delay
-/

namespace Verif.Latency

open Complex
open Verif.LFilter (getD_map_range ext_getD)

/-! ## Specification -/

/-- The signal `d` samples later, with the same length. -/
def delayed (d : ℕ) (x : List ℝ) : List ℝ := List.replicate d 0 ++ x.take (x.length - d)

/-- Every sample of largest magnitude is at least 200 samples behind the start and `d + 200` samples
before the end. -/
def Interior (d : ℕ) (x : List ℝ) : Prop :=
  ∀ p < x.length, (∀ k < x.length, |x.getD k 0| ≤ |x.getD p 0|) → 200 ≤ p ∧ p + d + 200 ≤ x.length

/-- The last `d` samples are zero. -/
def EndsSilent (d : ℕ) (x : List ℝ) : Prop := ∀ i, x.length - d ≤ i → x.getD i 0 = 0

/-! ## Delays -/

theorem delayed_length (d : ℕ) (x : List ℝ) (hd : d ≤ x.length) : (delayed d x).length = x.length := by
  unfold delayed
  rw [List.length_append, List.length_replicate, List.length_take]
  omega

theorem delayed_getD (d : ℕ) (x : List ℝ) (hs : EndsSilent d x) (i : ℕ) :
    (delayed d x).getD i 0 = if d ≤ i then x.getD (i - d) 0 else 0 := by
  unfold delayed
  by_cases h : d ≤ i
  · rw [if_pos h, List.getD_append_right _ _ _ _ (by simpa using h), List.length_replicate]
    by_cases h2 : i - d < x.length - d
    · rw [List.getD_eq_getElem?_getD, List.getElem?_take_of_lt h2, List.getD_eq_getElem?_getD]
    · rw [List.getD_eq_default _ _ (by rw [List.length_take]; omega), hs _ (by omega)]
  · rw [if_neg h, List.getD_append _ _ _ _ (by simp; omega)]
    simp [List.getD_eq_getElem?_getD, show i < d by omega]

theorem rfft_delayed (N d : ℕ) (x : List ℝ) (hN : x.length ≤ N) (hd : d ≤ x.length)
    (hs : EndsSilent d x) (k : ℕ) :
    DFT.rfft N (fun n => (delayed d x).getD n 0) k =
      DFT.e N (-(k * d)) * DFT.rfft N (fun n => x.getD n 0) k := by
  unfold DFT.rfft DFT.dft
  obtain ⟨m, rfl⟩ : ∃ m, N = d + m := ⟨N - d, by omega⟩
  rw [Finset.sum_range_add]
  have h1 : ∑ n ∈ Finset.range d, (((delayed d x).getD n 0 : ℝ) : ℂ) * DFT.e (d + m) (-(k * n)) = 0 := by
    apply Finset.sum_eq_zero
    intro n hn
    rw [delayed_getD d x hs, if_neg (by have := Finset.mem_range.1 hn; omega)]
    simp
  have h2 : ∑ n ∈ Finset.range (d + m), ((x.getD n 0 : ℝ) : ℂ) * DFT.e (d + m) (-(k * n)) =
      ∑ n ∈ Finset.range m, ((x.getD n 0 : ℝ) : ℂ) * DFT.e (d + m) (-(k * n)) := by
    rw [Nat.add_comm d m, Finset.sum_range_add]
    rw [Finset.sum_eq_zero (s := Finset.range d), add_zero]
    intro n _
    rw [hs _ (by omega)]
    simp
  rw [h1, h2, zero_add, Finset.mul_sum]
  refine Finset.sum_congr rfl fun n _ => ?_
  dsimp only
  rw [delayed_getD d x hs, if_pos (by omega), Nat.add_sub_cancel_left]
  rw [show (-((k : ℤ) * ((d + n : ℕ) : ℤ))) = -(k * d) + -(k * n) by push_cast; ring, DFT.e_add]
  ring

theorem norm_e (N : ℕ) (k : ℤ) : ‖DFT.e N k‖ = 1 := by
  unfold DFT.e
  rw [show (2 * Real.pi * I * (k / N) : ℂ) = ((2 * Real.pi * (k / N) : ℝ) : ℂ) * I by push_cast; ring]
  exact Complex.norm_exp_ofReal_mul_I _

/-! ## Wrapped phases -/

theorem wrap_of_exp (a b : ℝ) (h : exp (a * I) = exp (b * I)) :
    Helpers.wrapPhase a = Helpers.wrapPhase b := by
  obtain ⟨n, hn⟩ := Complex.exp_eq_exp_iff_exists_int.1 h
  have h1 : (a : ℂ) = b + n * (2 * Real.pi) := by
    have : ((a : ℂ) - (b + n * (2 * Real.pi))) * I = 0 := by linear_combination hn
    rcases mul_eq_zero.1 this with h | h
    · linear_combination h
    · exact absurd h I_ne_zero
  have h2 : a = b + n * (2 * Real.pi) := by exact_mod_cast h1
  rw [h2]
  exact (Helpers.C46_idempotent b n).2

theorem exp_arg (z : ℂ) (hz : z ≠ 0) : exp (arg z * I) = z / ‖z‖ := by
  have h := Complex.norm_mul_exp_arg_mul_I z
  have h0 : ((‖z‖ : ℝ) : ℂ) ≠ 0 := by exact_mod_cast norm_ne_zero_iff.2 hz
  rw [eq_div_iff h0, mul_comm]
  exact h

theorem remove_delayed (N fs d : ℕ) (hfs : fs ≠ 0) (x : List ℝ) (hN : x.length ≤ N)
    (hd : d ≤ x.length) (hs : EndsSilent d x) (k : ℕ) (lat : ℝ)
    (hz : DFT.rfft N (fun n => x.getD n 0) k ≠ 0) :
    removeLatency fs (lat + d) (binFreq N fs k) (arg (DFT.rfft N (fun n => (delayed d x).getD n 0) k)) =
      removeLatency fs lat (binFreq N fs k) (arg (DFT.rfft N (fun n => x.getD n 0) k)) := by
  unfold removeLatency
  apply wrap_of_exp
  have h1 := rfft_delayed N d x hN hd hs k
  set z := DFT.rfft N (fun n => x.getD n 0) k with hzdef
  have he0 : DFT.e N (-(k * d)) ≠ 0 := by
    intro h
    have := norm_e N (-(k * d))
    rw [h] at this
    simp at this
  rw [h1]
  push_cast
  rw [add_mul, add_mul, Complex.exp_add, Complex.exp_add, exp_arg z hz, exp_arg _ (mul_ne_zero he0 hz),
    norm_mul, norm_e, one_mul]
  have hN0 : (N : ℂ) ≠ 0 ∨ N = 0 := by
    by_cases h : N = 0
    · exact Or.inr h
    · exact Or.inl (by exact_mod_cast h)
  have hfs' : (fs : ℂ) ≠ 0 := by exact_mod_cast hfs
  have h2 : DFT.e N (-(k * d)) * exp (2 * Real.pi * (binFreq N fs k : ℂ) * ((lat + d) / fs) * I) =
      exp (2 * Real.pi * (binFreq N fs k : ℂ) * (lat / fs) * I) := by
    unfold DFT.e binFreq
    rw [← Complex.exp_add]
    congr 1
    push_cast
    rcases hN0 with h | h
    · field_simp
      ring
    · subst h
      simp
  rw [← h2]
  ring

/-! ## Peaks -/

theorem argmax_unique (z : List ℝ) (q : ℕ) (hq : q < z.length)
    (h1 : ∀ k < z.length, |z.getD k 0| ≤ |z.getD q 0|) (h2 : ∀ k < q, |z.getD k 0| < |z.getD q 0|) :
    argmaxAbs z = .ok q := by
  have hne : (z.map fun a => -|a|) ≠ [] := by
    intro h
    rw [List.map_eq_nil_iff] at h
    rw [h] at hq
    simp at hq
  obtain ⟨p, hp, -⟩ := Helpers.argmin_spec (z.map fun a => -|a|) hne
  have hp' : argmaxAbs z = .ok p := hp
  obtain ⟨a1, a2, a3⟩ := FractionalPeak.argmax_spec z p hp'
  rw [hp']
  congr 1
  rcases lt_trichotomy p q with h | h | h
  · exact absurd (a2 q hq) (not_le.2 (h2 p h))
  · exact h
  · exact absurd (h1 p a1) (not_le.2 (a3 q h))

theorem argmax_delayed (d : ℕ) (x : List ℝ) (hd : d ≤ x.length) (hs : EndsSilent d x) (p : ℕ)
    (hp : argmaxAbs x = .ok p) (h0 : x.getD p 0 ≠ 0) : argmaxAbs (delayed d x) = .ok (p + d) := by
  obtain ⟨a1, a2, a3⟩ := FractionalPeak.argmax_spec x p hp
  have hlt : p < x.length - d := by
    by_contra h
    exact h0 (hs p (by omega))
  have hv : (delayed d x).getD (p + d) 0 = x.getD p 0 := by
    rw [delayed_getD d x hs, if_pos (by omega), Nat.add_sub_cancel]
  refine argmax_unique _ _ (by rw [delayed_length d x hd]; omega) (fun k hk => ?_) fun k hk => ?_
  · rw [hv, delayed_getD d x hs]
    rw [delayed_length d x hd] at hk
    split_ifs with h
    · exact a2 _ (by omega)
    · rw [abs_zero]
      exact abs_nonneg _
  · rw [hv, delayed_getD d x hs]
    split_ifs with h
    · exact a3 _ (by omega)
    · rw [abs_zero]
      exact abs_pos.2 h0

theorem interior_peak (d : ℕ) (x : List ℝ) (h : Interior d x) (hne : x ≠ []) :
    ∃ p, argmaxAbs x = .ok p ∧ x.getD p 0 ≠ 0 ∧ 200 ≤ p ∧ p + d + 200 ≤ x.length := by
  have hne' : (x.map fun a => -|a|) ≠ [] := by simpa using hne
  obtain ⟨p, hp, -⟩ := Helpers.argmin_spec (x.map fun a => -|a|) hne'
  have hp' : argmaxAbs x = .ok p := hp
  obtain ⟨a1, a2, -⟩ := FractionalPeak.argmax_spec x p hp'
  refine ⟨p, hp', fun h0 => ?_, h p a1 a2⟩
  have h1 := h 0 (by omega) fun k hk => by
    have := a2 k hk
    rw [h0, abs_zero] at this
    exact this.trans (abs_nonneg _)
  omega

theorem foldr_max_add (d : ℕ) : ∀ (a : ℕ) (l : List ℕ),
    ((a :: l).map (· + d)).foldr max 0 = (a :: l).foldr max 0 + d
  | a, [] => by simp
  | a, b :: l => by
    have ih := foldr_max_add d b l
    rw [List.map_cons, List.foldr_cons, ih, List.foldr_cons]
    exact Nat.add_max_add_right a _ d

theorem foldr_min_add (d b : ℕ) : ∀ l : List ℕ,
    (l.map (· + d)).foldr min (b + d) = l.foldr min b + d
  | [] => rfl
  | a :: l => by
    rw [List.map_cons, List.foldr_cons, foldr_min_add d b l, List.foldr_cons]
    exact Nat.add_min_add_right a _ d

theorem foldr_max_le (B : ℕ) : ∀ l : List ℕ, (∀ p ∈ l, p ≤ B) → l.foldr max 0 ≤ B
  | [], _ => Nat.zero_le _
  | a :: l, h => max_le (h a (by simp)) (foldr_max_le B l fun p hp => h p (by simp [hp]))

theorem le_foldr_min (B b : ℕ) (hb : B ≤ b) : ∀ l : List ℕ, (∀ p ∈ l, B ≤ p) → B ≤ l.foldr min b
  | [], _ => hb
  | a :: l, h => le_min (h a (by simp)) (le_foldr_min B b hb l fun p hp => h p (by simp [hp]))

theorem crop_delayed (d start last : ℕ) (x : List ℝ) (h : last + 200 + d ≤ x.length) :
    FractionalPeak.crop (start + d) (last + d) (delayed d x) = FractionalPeak.crop start last x := by
  unfold FractionalPeak.crop delayed
  have hl : (List.replicate d (0 : ℝ)).length = d := by simp
  rw [show last + d + 200 = (List.replicate d (0 : ℝ)).length + (last + 200) by rw [hl]; omega,
    List.take_length_add_append, show start + d = (List.replicate d (0 : ℝ)).length + start by
      rw [hl]; omega, List.drop_length_add_append, List.take_take, min_eq_left (by omega)]

theorem mapM_shift (d : ℝ) (f f' : ℕ → Except Err ℝ) : ∀ l : List ℕ,
    (∀ c ∈ l, f' c = (f c).map (· + d)) → l.mapM f' = (l.mapM f).map (·.map (· + d))
  | [], _ => rfl
  | c :: l, h => by
    rw [List.mapM_cons, List.mapM_cons, h c (by simp), mapM_shift d f f' l fun c hc => h c (by simp [hc])]
    cases f c with
    | error e => rfl
    | ok v =>
      cases l.mapM f with
      | error e => rfl
      | ok r => rfl

theorem argmaxs (d n : ℕ) (hd : d ≤ n) (hn : 0 < n) : ∀ td : List (List ℝ), (∀ x ∈ td, x.length = n) →
    (∀ x ∈ td, EndsSilent d x) → (∀ x ∈ td, Interior d x) →
    ∃ ds : List ℕ, td.mapM argmaxAbs = .ok ds ∧ ds.length = td.length ∧
      (td.map (delayed d)).mapM argmaxAbs = .ok (ds.map (· + d)) ∧
      ∀ p ∈ ds, 200 ≤ p ∧ p + d + 200 ≤ n
  | [], _, _, _ => ⟨[], rfl, rfl, rfl, by simp⟩
  | x :: td, h1, h2, h3 => by
    obtain ⟨ds, e1, e2, e3, e4⟩ := argmaxs d n hd hn td (fun x hx => h1 x (by simp [hx]))
      (fun x hx => h2 x (by simp [hx])) fun x hx => h3 x (by simp [hx])
    have hl := h1 x (by simp)
    have hne : x ≠ [] := by
      intro h
      rw [h] at hl
      simp at hl
      omega
    obtain ⟨p, p1, p2, p3, p4⟩ := interior_peak d x (h3 x (by simp)) hne
    refine ⟨p :: ds, ?_, by simp [e2], ?_, ?_⟩
    · rw [List.mapM_cons, p1, e1]
      rfl
    · rw [List.map_cons, List.mapM_cons, argmax_delayed d x (by omega) (h2 x (by simp)) p p1 p2, e3]
      rfl
    · intro q hq
      rcases List.mem_cons.1 hq with rfl | hq
      · exact ⟨p3, by omega⟩
      · exact e4 q hq

/-- Delaying all channels moves all peaks, to the fraction of a sample. -/
theorem peaks_delayed (hilb : List ℝ → List ℝ) (td : List (List ℝ)) (n d : ℕ) (hd : d ≤ n) (hn : 0 < n)
    (h1 : ∀ x ∈ td, x.length = n) (h2 : ∀ x ∈ td, EndsSilent d x) (h3 : ∀ x ∈ td, Interior d x) :
    FractionalPeak.peaks hilb (td.map (delayed d)) =
      (FractionalPeak.peaks hilb td).map (·.map (· + (d : ℝ))) := by
  obtain ⟨ds, e1, e2, e3, e4⟩ := argmaxs d n hd hn td h1 h2 h3
  unfold FractionalPeak.peaks
  rw [e1, e3]
  cases ds with
  | nil => rfl
  | cons p ds =>
    simp only [bind, Except.bind, pure, Except.pure]
    rw [if_neg (by simp), if_neg (by simp)]
    have hmax := foldr_max_add d p ds
    have hmin : ((p :: ds).map (· + d)).foldr min (((p :: ds).map (· + d)).headD 0) =
        (p :: ds).foldr min ((p :: ds).headD 0) + d := foldr_min_add d p (p :: ds)
    have hge : 200 ≤ (p :: ds).foldr min ((p :: ds).headD 0) :=
      le_foldr_min 200 p (e4 p (by simp)).1 _ fun q hq => (e4 q hq).1
    have hle : (p :: ds).foldr max 0 ≤ n - d - 200 :=
      foldr_max_le _ _ fun q hq => by have := (e4 q hq).2; omega
    have hp := (e4 p (by simp)).2
    rw [hmax, hmin, List.length_map]
    set start := (p :: ds).foldr min ((p :: ds).headD 0) with hstart
    set last := (p :: ds).foldr max 0 with hlast
    apply mapM_shift
    intro c hc
    have hc' := List.mem_range.1 hc
    have hx : (td.map (delayed d)).getD c [] = delayed d (td.getD c []) := by
      rw [List.getD_eq_getElem _ _ (by simpa using hc'), List.getElem_map, List.getD_eq_getElem _ _ hc']
    have hlen : (td.getD c []).length = n := by
      rw [List.getD_eq_getElem _ _ hc']
      exact h1 _ (List.getElem_mem _)
    have hds : ((p :: ds).map (· + d)).getD c 0 = (p :: ds).getD c 0 + d := by
      have : c < (p :: ds).length := by omega
      rw [List.getD_eq_getElem _ _ (by simpa using this), List.getElem_map, List.getD_eq_getElem _ _ this]
    rw [hx, hds, show start + d - 200 = (start - 200) + d by omega,
      crop_delayed d (start - 200) last _ (by omega),
      show (p :: ds).getD c 0 + d - (start - 200 + d) = (p :: ds).getD c 0 - (start - 200) by omega]
    cases FractionalPeak.refine (hilb (FractionalPeak.crop (start - 200) last (td.getD c [])))
        ((p :: ds).getD c 0 - (start - 200)) with
    | error e => rfl
    | ok v =>
      show Except.ok (v + ((start - 200 + d : ℕ) : ℝ)) = Except.ok (v + ((start - 200 : ℕ) : ℝ) + (d : ℝ))
      push_cast
      rw [add_assoc]

/-! ## Correlations with the minimum phase -/

theorem spectrum_delayed (M d : ℕ) (x : List ℝ) (hM : x.length ≤ M) (hd : d ≤ x.length)
    (hs : EndsSilent d x) :
    MinimumPhase.cepstrumIr M (fun n => (delayed d x).getD n 0) =
      MinimumPhase.cepstrumIr M (fun n => x.getD n 0) := by
  have hn : ∀ k, ‖DFT.rfft M (fun n => (delayed d x).getD n 0) k‖ =
      ‖DFT.rfft M (fun n => x.getD n 0) k‖ := fun k => by
    rw [rfft_delayed M d x hM hd hs k, norm_mul, norm_e, one_mul]
  have hz : ∀ k, DFT.rfft M (fun n => (delayed d x).getD n 0) k = 0 ↔
      DFT.rfft M (fun n => x.getD n 0) k = 0 := fun k => by
    rw [← norm_eq_zero, hn k, norm_eq_zero]
  unfold MinimumPhase.cepstrumIr MinimumPhase.spectrum MinimumPhase.realCepstrum
  simp only [hn, hz]

theorem minIr_delayed (fast : ℕ → ℕ) (hf : ∀ m, m ≤ fast m) (q d : ℕ) (x : List ℝ)
    (hd : d ≤ x.length) (hs : EndsSilent d x) : minIr fast q (delayed d x) = minIr fast q x := by
  unfold minIr
  rw [delayed_length d x hd]
  dsimp only
  rw [spectrum_delayed _ d x (le_trans (le_max_right _ _) (hf _)) hd hs]

theorem correlate_length (x y : List ℝ) (hx : x ≠ []) (hy : y ≠ []) :
    (correlate x y).length = x.length + y.length - 1 := by
  unfold correlate
  rw [if_neg (by simp [hx, hy])]
  simp

theorem correlate_getD (x y : List ℝ) (hx : x ≠ []) (hy : y ≠ []) (k : ℕ) :
    (correlate x y).getD k 0 = correlateAt x y k := by
  unfold correlate
  rw [if_neg (by simp [hx, hy]), getD_map_range]
  split_ifs with h
  · rfl
  · unfold correlateAt
    symm
    apply Finset.sum_eq_zero
    intro l hl
    have := Finset.mem_range.1 hl
    have hy' := List.length_pos_of_ne_nil hy
    rw [if_neg (by omega)]

theorem correlateAt_delayed (m x : List ℝ) (d : ℕ) (hd : d ≤ x.length) (hs : EndsSilent d x) (k : ℕ) :
    correlateAt m (delayed d x) k = correlateAt m x (k + d) := by
  unfold correlateAt
  rw [delayed_length d x hd]
  refine Finset.sum_congr rfl fun l _ => ?_
  rw [delayed_getD d x hs]
  by_cases h : k + d ≤ l + (x.length - 1)
  · rw [if_pos (by omega), if_pos h, if_pos (by omega),
      show l + (x.length - 1) - k - d = l + (x.length - 1) - (k + d) by omega]
  · rw [if_neg h]
    by_cases h2 : k ≤ l + (x.length - 1)
    · rw [if_pos h2, if_neg (by omega), mul_zero]
    · rw [if_neg h2]

/-- The correlation with the delayed signal is the earlier one. -/
theorem correlate_delayed (m x : List ℝ) (hm : m ≠ []) (hx : x ≠ []) (d : ℕ) (hd : d ≤ x.length)
    (hs : EndsSilent d x) :
    EndsSilent d (correlate m (delayed d x)) ∧
      correlate m x = delayed d (correlate m (delayed d x)) := by
  have hxl := List.length_pos_of_ne_nil hx
  have hy : delayed d x ≠ [] := by
    intro h
    have := delayed_length d x hd
    rw [h] at this
    simp at this
    omega
  have hl := correlate_length m (delayed d x) hm hy
  rw [delayed_length d x hd] at hl
  have hml := List.length_pos_of_ne_nil hm
  have hend : EndsSilent d (correlate m (delayed d x)) := by
    intro i hi
    rw [hl] at hi
    rw [correlate_getD m _ hm hy, correlateAt_delayed m x d hd hs]
    unfold correlateAt
    apply Finset.sum_eq_zero
    intro l hl'
    have := Finset.mem_range.1 hl'
    rw [if_neg (by omega)]
  refine ⟨hend, ext_getD _ _ ?_ fun i hi => ?_⟩
  · rw [delayed_length d _ (by rw [hl]; omega), hl, correlate_length m x hm hx]
  · rw [delayed_getD d _ hend, correlate_getD m x hm hx]
    split_ifs with h
    · rw [correlate_getD m _ hm hy, correlateAt_delayed m x d hd hs, Nat.sub_add_cancel h]
    · unfold correlateAt
      apply Finset.sum_eq_zero
      intro l hl'
      have := Finset.mem_range.1 hl'
      split_ifs with h2
      · rw [hs (l + (x.length - 1) - i) (by omega), mul_zero]
      · rfl

/-! ## Theorems -/

theorem removeAll_delayed (N fs d n : ℕ) (hfs : fs ≠ 0) (hnN : n ≤ N) (hd : d ≤ n)
    (td : List (List ℝ)) (h1 : ∀ x ∈ td, x.length = n) (h2 : ∀ x ∈ td, EndsSilent d x)
    (hz : ∀ x ∈ td, ∀ k < DFT.rfftBins N, DFT.rfft N (fun n => x.getD n 0) k ≠ 0) (l : List ℝ) :
    removeAll N fs ((td.map (delayed d)).map (angles N)) (l.map (· + (d : ℝ))) =
      removeAll N fs (td.map (angles N)) l := by
  unfold removeAll
  simp only [List.length_map]
  by_cases hl : l.length = td.length
  · rw [if_neg (by simpa using hl), if_neg (by simpa using hl)]
    congr 1
    apply List.map_congr_left
    intro c hc
    have hc' := List.mem_range.1 hc
    have e1 : (((td.map (delayed d)).map (angles N))).getD c [] = angles N (delayed d td[c]) := by
      rw [List.getD_eq_getElem _ _ (by simpa using hc'), List.getElem_map, List.getElem_map]
    have e2 : (td.map (angles N)).getD c [] = angles N td[c] := by
      rw [List.getD_eq_getElem _ _ (by simpa using hc'), List.getElem_map]
    have e3 : (l.map (· + (d : ℝ))).getD c 0 = l.getD c 0 + d := by
      rw [List.getD_eq_getElem _ _ (by simp; omega), List.getElem_map,
        List.getD_eq_getElem _ _ (by omega)]
    have hmem : td[c] ∈ td := List.getElem_mem _
    rw [e1, e2, e3]
    unfold angles
    simp only [List.length_map, List.length_range]
    apply List.map_congr_left
    intro k hk
    have hk' := List.mem_range.1 hk
    rw [getD_map_range, if_pos hk', getD_map_range, if_pos hk']
    have hlen := h1 _ hmem
    exact remove_delayed N fs d hfs td[c] (by omega) (by omega) (h2 _ hmem) k _ (hz _ hmem k hk')
  · rw [if_pos (by simpa using hl), if_pos (by simpa using hl)]

/-- The latencies against the minimum phase grow by the delay. -/
theorem minPhaseLatency_delayed (hilb : List ℝ → List ℝ) (fast : ℕ → ℕ) (hf : ∀ m, m ≤ fast m) (q d n : ℕ)
    (hn : 0 < n) (hd : d ≤ n) (td : List (List ℝ))
    (h1 : ∀ x ∈ td, x.length = n) (h2 : ∀ x ∈ td, EndsSilent d x)
    (h3 : ∀ x ∈ td, ∀ m, minIr fast q x = .ok m → Interior d (correlate m (delayed d x))) :
    minPhaseLatency hilb fast q (td.map (delayed d)) =
      (minPhaseLatency hilb fast q td).map (·.map (· + (d : ℝ))) := by
  have hm : (td.map (delayed d)).mapM (minIr fast q) = td.mapM (minIr fast q) := by
    rw [List.mapM_map]
    clear h3
    induction td with
    | nil => rfl
    | cons x td ih =>
      rw [List.mapM_cons, List.mapM_cons, ih (fun x hx => h1 x (by simp [hx]))
        fun x hx => h2 x (by simp [hx]), Function.comp_apply,
        minIr_delayed fast hf q d x (by rw [h1 x (by simp)]; exact hd) (h2 x (by simp))]
  unfold minPhaseLatency
  rw [hm]
  cases hmm : td.mapM (minIr fast q) with
  | error e => rfl
  | ok m =>
    obtain ⟨m1, m2⟩ := Room.mapM_spec _ _ _ hmm
    dsimp only
    have hpos : ∀ c (hc : c < td.length) (hc' : c < m.length), m[c] ≠ [] := by
      intro c hc hc' h0
      have h4 := m2 c hc hc'
      have h5 := h1 _ (List.getElem_mem hc)
      unfold minIr at h4
      dsimp only at h4
      cases hcc : MinimumPhase.cepstrumIr (fast (max (td[c].length * q) td[c].length))
          (fun n => td[c].getD n 0) with
      | none => rw [hcc] at h4; cases h4
      | some y =>
        rw [hcc] at h4
        have h6 := congrArg List.length (Except.ok.inj h4)
        rw [h0, List.length_map, List.length_range] at h6
        have h7 := hf (max (td[c].length * q) td[c].length)
        simp only [List.length_nil] at h6
        omega
    have hxne : ∀ c (hc : c < td.length), td[c] ≠ [] := by
      intro c hc h0
      have h5 := h1 _ (List.getElem_mem hc)
      rw [h0] at h5
      simp at h5
      omega
    have hlat : FractionalPeak.fractional2 hilb (td.map (delayed d)) m =
        (FractionalPeak.fractional2 hilb td m).map (·.map (· + (d : ℝ))) := by
      by_cases htd : td = []
      · subst htd
        have : m = [] := by simpa using m1
        subst this
        rfl
      have htl : 0 < td.length := List.length_pos_of_ne_nil htd
      unfold FractionalPeak.fractional2
      set Z := (List.range m.length).map fun c =>
        correlate (m.getD c []) ((td.map (delayed d)).getD c []) with hZ
      have hZc : ∀ c (hc : c < td.length), correlate (m.getD c []) ((td.map (delayed d)).getD c []) =
          correlate (m[c]'(by omega)) (delayed d td[c]) := by
        intro c hc
        rw [List.getD_eq_getElem _ _ (by omega), List.getD_eq_getElem _ _ (by simpa using hc),
          List.getElem_map]
      have hZd : (List.range m.length).map (fun c => correlate (m.getD c []) (td.getD c [])) =
          Z.map (delayed d) := by
        rw [hZ, List.map_map]
        apply List.map_congr_left
        intro c hc
        have hc' := List.mem_range.1 hc
        rw [Function.comp_apply, hZc c (by omega), List.getD_eq_getElem _ _ hc',
          List.getD_eq_getElem _ _ (by omega)]
        have h5 := h1 _ (List.getElem_mem (show c < td.length by omega))
        exact (correlate_delayed _ _ (hpos c (by omega) hc') (hxne c (by omega)) d (by omega)
          (h2 _ (List.getElem_mem _))).2
      have hmlen : ∀ c (hc : c < td.length) (hc' : c < m.length),
          m[c].length = fast (max (n * q) n) := by
        intro c hc hc'
        have h4 := m2 c hc hc'
        have h5 := h1 _ (List.getElem_mem hc)
        unfold minIr at h4
        rw [h5] at h4
        dsimp only at h4
        cases hcc : MinimumPhase.cepstrumIr (fast (max (n * q) n)) (fun n => td[c].getD n 0) with
        | none => rw [hcc] at h4; cases h4
        | some y =>
          rw [hcc] at h4
          have h6 := congrArg List.length (Except.ok.inj h4)
          rw [List.length_map, List.length_range] at h6
          exact h6.symm
      have hmem : ∀ z ∈ Z, z.length = fast (max (n * q) n) + n - 1 ∧ EndsSilent d z ∧ Interior d z := by
        intro z hzm
        rw [hZ, List.mem_map] at hzm
        obtain ⟨c, hc, rfl⟩ := hzm
        have hc' := List.mem_range.1 hc
        have hc2 : c < td.length := by omega
        rw [hZc c hc2]
        have h5 := h1 _ (List.getElem_mem hc2)
        have hy : delayed d td[c] ≠ [] := by
          intro h
          have := delayed_length d td[c] (by omega)
          rw [h] at this
          simp at this
          omega
        refine ⟨?_, (correlate_delayed _ _ (hpos c hc2 hc') (hxne c hc2) d (by omega)
          (h2 _ (List.getElem_mem _))).1, h3 _ (List.getElem_mem _) _ (m2 c hc2 hc')⟩
        rw [correlate_length _ _ (hpos c hc2 hc') hy, hmlen c hc2 hc', delayed_length d _ (by omega), h5]
      have h8 := hf (max (n * q) n)
      have h9 := le_max_right (n * q) n
      rw [hZd, peaks_delayed hilb Z (fast (max (n * q) n) + n - 1) d (by omega) (by omega)
        (fun z hz => (hmem z hz).1) (fun z hz => (hmem z hz).2.1) fun z hz => (hmem z hz).2.2]
      have e1 : ((td.map (delayed d)).getD 0 []).length = n := by
        rw [List.getD_eq_getElem _ _ (by simpa using htl), List.getElem_map]
        have h5 := h1 _ (List.getElem_mem htl)
        rw [delayed_length d _ (by omega), h5]
      have e2 : (td.getD 0 []).length = n := by
        rw [List.getD_eq_getElem _ _ htl]
        exact h1 _ (List.getElem_mem htl)
      cases FractionalPeak.peaks hilb Z with
      | error e => rfl
      | ok v =>
        simp only [bind, Except.bind, Except.map, pure, Except.pure, e1, e2, List.map_map]
        congr 1
        apply List.map_congr_left
        intro a _
        simp only [Function.comp_apply]
        ring
    exact hlat

/-- A delay of all channels by `d` samples, with nothing lost at the end, does not change the phases
without latency: with the option "peak" if the peaks stay away from both ends, with "min_phase" if those
of the correlations with the minimum phase do, and with given latencies if `d` is added to them.  This
holds for any substitute of the Hilbert transform. -/
theorem C151_delay (hilb : List ℝ → List ℝ) (fast : ℕ → ℕ) (hf : ∀ m, m ≤ fast m) (N fs d n : ℕ)
    (hfs : fs ≠ 0) (hn : 0 < n) (hnN : n ≤ N) (hd : d ≤ n) (td : List (List ℝ))
    (h1 : ∀ x ∈ td, x.length = n) (h2 : ∀ x ∈ td, EndsSilent d x)
    (hz : ∀ x ∈ td, ∀ k < DFT.rfftBins N, DFT.rfft N (fun n => x.getD n 0) k ≠ 0) :
    (∀ s : String, s.toLower = "peak" → (∀ x ∈ td, Interior d x) →
      phases hilb fast N fs (td.map (delayed d)) (.text s) = phases hilb fast N fs td (.text s)) ∧
    (∀ s : String, s.toLower = "min_phase" →
      (∀ x ∈ td, ∀ m, minIr fast 8 x = .ok m → Interior d (correlate m (delayed d x))) →
      phases hilb fast N fs (td.map (delayed d)) (.text s) = phases hilb fast N fs td (.text s)) ∧
    ∀ l : List ℝ, phases hilb fast N fs (td.map (delayed d)) (.samples (l.map (· + (d : ℝ)))) =
      phases hilb fast N fs td (.samples l) := by
  refine ⟨fun s hs h3 => ?_, fun s hs h3 => ?_, fun l => removeAll_delayed N fs d n hfs hnN hd td h1 h2 hz l⟩
  · unfold phases
    dsimp only
    rw [if_pos hs, if_pos hs, peaks_delayed hilb td n d hd hn h1 h2 h3]
    cases FractionalPeak.peaks hilb td with
    | error e => rfl
    | ok l => exact removeAll_delayed N fs d n hfs hnN hd td h1 h2 hz l
  · have hne : ¬ s.toLower = "peak" := by rw [hs]; decide
    unfold phases
    dsimp only
    rw [if_neg hne, if_pos hs, if_neg hne, if_pos hs]
    rw [minPhaseLatency_delayed hilb fast hf 8 d n hn hd td h1 h2 h3]
    cases minPhaseLatency hilb fast 8 td with
    | error e => rfl
    | ok l => exact removeAll_delayed N fs d n hfs hnN hd td h1 h2 hz l

/-- With the latencies `l` the phase of bin `k` is the one of the transform turned forward by the
latency, between `-π` and `π`. -/
theorem C151_value (hilb : List ℝ → List ℝ) (fast : ℕ → ℕ) (N fs : ℕ) (hfs : fs ≠ 0)
    (td : List (List ℝ)) (l : List ℝ) (hl : l.length = td.length) :
    ∃ r, phases hilb fast N fs td (.samples l) = .ok r ∧ r.length = td.length ∧
      ∀ c (hc : c < td.length), (r.getD c []).length = N / 2 + 1 ∧ ∀ k ≤ N / 2,
        -Real.pi ≤ (r.getD c []).getD k 0 ∧ (r.getD c []).getD k 0 < Real.pi ∧
        (DFT.rfft N (fun n => td[c].getD n 0) k ≠ 0 →
          exp ((r.getD c []).getD k 0 * I) = DFT.rfft N (fun n => td[c].getD n 0) k /
            ‖DFT.rfft N (fun n => td[c].getD n 0) k‖ * exp (2 * Real.pi * (k * l.getD c 0 / N) * I)) := by
  refine ⟨_, if_neg (by simpa using hl), by simp, fun c hc => ?_⟩
  have e2 : (td.map (angles N)).getD c [] = angles N td[c] := by
    rw [List.getD_eq_getElem _ _ (by simpa using hc), List.getElem_map]
  have e3 : ((List.range (td.map (angles N)).length).map fun c =>
      (List.range ((td.map (angles N)).getD c []).length).map fun k =>
        removeLatency fs (l.getD c 0) (binFreq N fs k) (((td.map (angles N)).getD c []).getD k 0)).getD c [] =
      (List.range (angles N td[c]).length).map fun k =>
        removeLatency fs (l.getD c 0) (binFreq N fs k) ((angles N td[c]).getD k 0) := by
    rw [List.getD_eq_getElem _ _ (by simpa using hc), List.getElem_map, List.getElem_range, e2]
  rw [e3]
  have hlen : (angles N td[c]).length = N / 2 + 1 := by simp [angles, DFT.rfftBins]
  refine ⟨by simp [hlen], fun k hk => ?_⟩
  have e4 : (angles N td[c]).getD k 0 = arg (DFT.rfft N (fun n => td[c].getD n 0) k) := by
    unfold angles
    rw [getD_map_range, if_pos (by unfold DFT.rfftBins; omega)]
  rw [getD_map_range, if_pos (by omega), e4]
  obtain ⟨a1, a2, a3⟩ := C130_phase fs (l.getD c 0) (binFreq N fs k)
    (arg (DFT.rfft N (fun n => td[c].getD n 0) k))
  refine ⟨a1, a2, fun hz => ?_⟩
  rw [a3, exp_arg _ hz]
  congr 2
  unfold binFreq
  have hfs' : (fs : ℂ) ≠ 0 := by exact_mod_cast hfs
  push_cast
  by_cases hN : (N : ℂ) = 0
  · rw [hN]
    simp
  · field_simp

/-- The option "peak" takes as latency of a channel a position that is at most one sample away from its
largest sample. -/
theorem C151_peak (hilb : List ℝ → List ℝ) (fast : ℕ → ℕ) (N fs : ℕ) (td r : List (List ℝ))
    (h : phases hilb fast N fs td (.text "peak") = .ok r) :
    ∃ l : List ℝ, phases hilb fast N fs td (.samples l) = .ok r ∧ l.length = td.length ∧
      ∀ c (hc : c < td.length), ∃ p < td[c].length,
        (∀ k < td[c].length, |td[c].getD k 0| ≤ |td[c].getD p 0|) ∧ |l.getD c 0 - p| ≤ 1 := by
  unfold phases at h
  dsimp only at h
  rw [if_pos (by decide +kernel)] at h
  cases hp : FractionalPeak.peaks hilb td with
  | error e => rw [hp] at h; cases h
  | ok l =>
    rw [hp] at h
    refine ⟨l, h, (FractionalPeak.C135_peaks hilb td l hp).1, fun c hc => ?_⟩
    obtain ⟨p, h1, h2, h3⟩ := FractionalPeak.C135_near hilb td l hp c hc
    exact ⟨p, h1, h2, h3⟩

/-- Other texts and a number of latencies that is not the number of channels are refused; capital letters
do not matter. -/
theorem C151_refused (hilb : List ℝ → List ℝ) (fast : ℕ → ℕ) (N fs : ℕ) (td : List (List ℝ)) :
    (∀ s : String, s.toLower ≠ "peak" → s.toLower ≠ "min_phase" →
      phases hilb fast N fs td (.text s) = .error .valueError) ∧
    (∀ l : List ℝ, l.length ≠ td.length →
      phases hilb fast N fs td (.samples l) = .error .assertionError) ∧
    ∀ s t : String, s.toLower = t.toLower →
      phases hilb fast N fs td (.text s) = phases hilb fast N fs td (.text t) := by
  refine ⟨fun s h1 h2 => ?_, fun l h => if_pos (by simpa using h), fun s t h => ?_⟩
  · unfold phases
    dsimp only
    rw [if_neg h1, if_neg h2]
  · unfold phases
    dsimp only
    rw [h]

/-! ## A pure delay -/

/-- One sample that is not zero. -/
noncomputable def pulse (n p : ℕ) (a : ℝ) : List ℝ := (List.range n).map fun i => if i = p then a else 0

theorem pulse_length (n p : ℕ) (a : ℝ) : (pulse n p a).length = n := by simp [pulse]

theorem pulse_getD (n p : ℕ) (a : ℝ) (hp : p < n) (i : ℕ) :
    (pulse n p a).getD i 0 = if i = p then a else 0 := by
  unfold pulse
  rw [getD_map_range]
  split_ifs with h1 h2 h2
  · rfl
  · rfl
  · omega
  · rfl

theorem pulse_rfft (N n p : ℕ) (a : ℝ) (hp : p < n) (hN : n ≤ N) (k : ℕ) :
    DFT.rfft N (fun i => (pulse n p a).getD i 0) k = a * DFT.e N (-(k * p)) := by
  unfold DFT.rfft DFT.dft
  rw [Finset.sum_eq_single p]
  · dsimp only
    rw [pulse_getD n p a hp, if_pos rfl]
  · intro i _ hi
    dsimp only
    rw [pulse_getD n p a hp, if_neg hi]
    simp
  · intro h
    exact absurd (Finset.mem_range.2 (by omega)) h

theorem pulse_argmax (n p : ℕ) (a : ℝ) (ha : a ≠ 0) (hp : p < n) : argmaxAbs (pulse n p a) = .ok p := by
  refine argmax_unique _ _ (by rw [pulse_length]; exact hp) (fun k _ => ?_) fun k hk => ?_
  · rw [pulse_getD n p a hp, pulse_getD n p a hp, if_pos rfl]
    split_ifs with h
    · exact le_rfl
    · rw [abs_zero]
      exact abs_nonneg a
  · rw [pulse_getD n p a hp, pulse_getD n p a hp, if_pos rfl, if_neg (by omega), abs_zero]
    exact abs_pos.2 ha

theorem refine_zero (h : List ℝ) (d : ℕ) (hd : d + 1 < h.length) (h0 : h.getD d 0 = 0) :
    FractionalPeak.refine h d = .ok (d : ℝ) := by
  by_cases h2 : h.getD d 0 = h.getD (d + 1) 0
  · unfold FractionalPeak.refine
    rw [if_neg (by omega)]
    have e0 : FractionalPeak.entry h (d : ℤ) = 0 := by
      unfold FractionalPeak.entry
      rw [if_neg (by omega), Int.toNat_natCast, h0]
    have e1 : FractionalPeak.entry h ((d : ℤ) + 1) = 0 := by
      unfold FractionalPeak.entry
      rw [if_neg (by omega), show ((d : ℤ) + 1).toNat = d + 1 by omega, ← h2, h0]
    have hb : decide (0 < h.getD d 0 * h.getD (d + 1) 0) = false := by
      rw [h0, zero_mul]
      simp
    rw [hb]
    simp only [Bool.false_eq_true, if_false, sub_zero, add_zero, e0, e1, mul_zero, lt_irrefl]
    rw [if_neg (by omega)]
    simp
  · rw [FractionalPeak.C135_crossing h d hd (by rw [h0, zero_mul]) h2, h0]
    simp

/-- The imaginary part of `scipy.signal.hilbert`. -/
noncomputable def hilbertIm (x : List ℝ) : List ℝ :=
  (List.range x.length).map fun j => (Transforms.analytic x.length (fun n => x.getD n 0) j).im

theorem hilbert_pulse (n p : ℕ) (a : ℝ) (hp : p < n) : (hilbertIm (pulse n p a)).getD p 0 = 0 := by
  unfold hilbertIm
  rw [getD_map_range, pulse_length, if_pos hp]
  unfold Transforms.analytic Transforms.ifft
  have hX : ∀ k, DFT.dft n (fun i => (((pulse n p a).getD i 0 : ℝ) : ℂ)) k = a * DFT.e n (-(k * p)) :=
    fun k => pulse_rfft n n p a hp le_rfl k
  have hterm : ∀ k : ℕ, ∃ r : ℝ, Transforms.analyticBin n
      (DFT.dft n fun i => (((pulse n p a).getD i 0 : ℝ) : ℂ)) k * DFT.e n (k * p) = (r : ℂ) := by
    intro k
    have he : DFT.e n (-(k * p)) * DFT.e n (k * p) = 1 := by
      rw [← DFT.e_add, neg_add_cancel, DFT.e_zero]
    have h1 : DFT.dft n (fun i => (((pulse n p a).getD i 0 : ℝ) : ℂ)) k * DFT.e n (k * p) = a := by
      rw [hX, mul_assoc, he, mul_one]
    unfold Transforms.analyticBin
    split_ifs
    · exact ⟨2 * a, by push_cast; linear_combination 2 * h1⟩
    · exact ⟨0, by simp⟩
    · exact ⟨a, h1⟩
    · exact ⟨2 * a, by push_cast; linear_combination 2 * h1⟩
    · exact ⟨0, by simp⟩
    · exact ⟨a, h1⟩
  choose r hr using hterm
  rw [Finset.sum_congr rfl fun k _ => hr k, ← Complex.ofReal_sum, ← Complex.ofReal_natCast,
    ← Complex.ofReal_div, Complex.ofReal_im]

/-- The peak of a pulse lies at its sample. -/
theorem peaks_pulse (n p : ℕ) (a : ℝ) (ha : a ≠ 0) (hp : p + 1 < n) :
    FractionalPeak.peaks hilbertIm [pulse n p a] = .ok [(p : ℝ)] := by
  have hy : (pulse (min n (p + 200) - (p - 200)) (p - (p - 200)) a).length =
      min (pulse n p a).length (p + 200) - (p - 200) := by
    rw [pulse_length, pulse_length]
  rw [FractionalPeak.C135_window hilbertIm (pulse n p a) p (pulse_argmax n p a ha (by omega)) _ hy]
  · rw [refine_zero _ _ (by simp only [hilbertIm, List.length_map, List.length_range, pulse_length]; omega)
      (hilbert_pulse _ _ a (by omega))]
    show Except.ok [((p - (p - 200) : ℕ) : ℝ) + ((p - 200 : ℕ) : ℝ)] = _
    rw [← Nat.cast_add, show p - (p - 200) + (p - 200) = p by omega]
  · intro i hi
    rw [pulse_getD _ _ a (by omega)]
    rw [pulse_getD n p a (by omega)]
    by_cases h : i = p - (p - 200)
    · rw [if_pos h, if_pos (by omega)]
    · rw [if_neg h, if_neg (by omega)]

/-- Without the latency `p` the phases of a pulse at `p` are zero. -/
theorem removeAll_pulse (N fs n p : ℕ) (a : ℝ) (ha : 0 < a) (hfs : fs ≠ 0) (hp : p < n) (hN : n ≤ N) :
    removeAll N fs ([pulse n p a].map (angles N)) [(p : ℝ)] = .ok [List.replicate (N / 2 + 1) 0] := by
  unfold removeAll
  rw [if_neg (by simp)]
  have hbin : ∀ k ∈ List.range (DFT.rfftBins N), removeLatency fs p (binFreq N fs k)
      ((angles N (pulse n p a)).getD k 0) = 0 := by
    intro k hk
    unfold angles
    rw [getD_map_range, if_pos (List.mem_range.1 hk), pulse_rfft N n p a (by omega) hN]
    unfold removeLatency
    have h0 : Helpers.wrapPhase 0 = 0 :=
      Helpers.C46_identity 0 (by linarith [Real.pi_pos]) Real.pi_pos
    rw [← h0]
    apply wrap_of_exp
    have he0 : DFT.e N (-(k * p)) ≠ 0 := by
      intro h
      have := norm_e N (-(k * p))
      rw [h] at this
      simp at this
    have ha' : (a : ℂ) ≠ 0 := by exact_mod_cast ha.ne'
    push_cast
    rw [add_mul, Complex.exp_add, exp_arg _ (mul_ne_zero ha' he0), norm_mul, norm_e, mul_one,
      Complex.norm_real, Real.norm_eq_abs, abs_of_pos ha, mul_div_right_comm, div_self ha', one_mul,
      zero_mul, Complex.exp_zero]
    unfold DFT.e binFreq
    rw [← Complex.exp_add]
    have hfs' : (fs : ℂ) ≠ 0 := by exact_mod_cast hfs
    have hN' : (N : ℂ) ≠ 0 := by
      have : N ≠ 0 := by omega
      exact_mod_cast this
    rw [show (2 * Real.pi * I * ((-(k * p) : ℤ) / N) +
      2 * Real.pi * ((k * fs / N : ℝ) : ℂ) * (p / fs) * I : ℂ) = 0 by
        push_cast
        field_simp
        ring, Complex.exp_zero]
  congr 1
  simp only [List.map_cons, List.map_nil, List.length_cons, List.length_nil, zero_add, List.range_one]
  congr 1
  have hl : (angles N (pulse n p a)).length = DFT.rfftBins N := by simp [angles]
  simp only [List.getD_cons_zero, hl]
  rw [List.map_congr_left hbin, List.map_const', List.length_range]
  rfl

/-- The minimum phase of a pulse is the pulse at the start. -/
theorem minIr_pulse (fast : ℕ → ℕ) (hf : ∀ m, m ≤ fast m) (q n p : ℕ) (a : ℝ) (ha : 0 < a) (hp : p < n) :
    minIr fast q (pulse n p a) = .ok (pulse (fast (max (n * q) n)) 0 a) := by
  unfold minIr
  rw [pulse_length]
  dsimp only
  set M := fast (max (n * q) n) with hM
  have hMn : n ≤ M := le_trans (le_max_right _ _) (hf _)
  have hx : ∀ k < M, DFT.rfft M (fun i => (pulse n p a).getD i 0) k ≠ 0 := by
    intro k _ h
    rw [pulse_rfft M n p a hp hMn] at h
    have := congrArg norm h
    rw [norm_mul, norm_e, mul_one, Complex.norm_real, norm_zero, Real.norm_eq_abs, abs_of_pos ha] at this
    exact ha.ne' this
  unfold MinimumPhase.cepstrumIr
  rw [MinimumPhase.spectrum_some M _ hx]
  dsimp only [Option.map_some]
  congr 1
  unfold pulse
  apply List.map_congr_left
  intro i hi
  have hi' := List.mem_range.1 hi
  have hfold : ∀ j < M, MinimumPhase.fold M (MinimumPhase.realCepstrum M fun i => (pulse n p a).getD i 0) j =
      (pulse M 0 (Real.log a)).getD j 0 := by
    intro j hj
    refine ExcessDelay.fold_unique M _ (fun j => (pulse M 0 (Real.log a)).getD j 0) (fun j hj1 hj2 => ?_)
      (fun k _ => ?_) j hj
    · rw [pulse_getD _ _ _ (by omega), if_neg (by omega)]
    · rw [pulse_rfft M M 0 _ (by omega) le_rfl, pulse_rfft M n p a hp hMn, norm_mul, norm_e, mul_one,
        Complex.norm_real, Real.norm_eq_abs, abs_of_pos ha]
      simp [DFT.e_zero]
  have hspec : ∀ k < M, Complex.exp (DFT.rfft M (MinimumPhase.fold M
      (MinimumPhase.realCepstrum M fun i => (pulse n p a).getD i 0)) k) =
      DFT.dft M (fun i => ((pulse M 0 a).getD i 0 : ℂ)) k := by
    intro k _
    rw [ExcessDelay.rfft_congr' M _ _ hfold, pulse_rfft M M 0 _ (by omega) le_rfl]
    have := pulse_rfft M M 0 a (by omega) le_rfl k
    unfold DFT.rfft at this
    rw [this]
    simp only [Nat.cast_zero, mul_zero, neg_zero, DFT.e_zero, mul_one]
    rw [← Complex.ofReal_exp, Real.exp_log ha]
  have hsame : (fun i => (((List.range n).map fun i => if i = p then a else 0).getD i 0)) =
      fun i => (pulse n p a).getD i 0 := rfl
  rw [hsame, Transforms.ifft_congr M _ _ hspec, Transforms.ifft_dft M _ i hi', Complex.ofReal_re,
    pulse_getD _ _ _ (by omega)]

/-- The correlation of a pulse with the pulse at the start is a pulse. -/
theorem correlate_pulse (M n p : ℕ) (a : ℝ) (hM : 0 < M) (hp : p < n) :
    correlate (pulse M 0 a) (pulse n p a) = pulse (M + n - 1) (n - 1 - p) (a * a) := by
  have hne : ∀ n p : ℕ, 0 < n → pulse n p a ≠ [] := by
    intro n p hn h
    have := pulse_length n p a
    rw [h] at this
    simp at this
    omega
  have h1 := hne M 0 hM
  have h2 := hne n p (by omega)
  apply ext_getD
  · rw [correlate_length _ _ h1 h2, pulse_length, pulse_length, pulse_length]
  · intro k hk
    rw [correlate_getD _ _ h1 h2, pulse_getD _ _ _ (by omega)]
    unfold correlateAt
    rw [pulse_length, pulse_length, Finset.sum_eq_single 0]
    · rw [pulse_getD _ _ _ hM, if_pos rfl, pulse_getD _ _ _ hp]
      split_ifs <;> first | rfl | omega | simp
    · intro l _ hl
      rw [pulse_getD _ _ _ hM, if_neg hl]
      simp
    · intro h
      exact absurd (Finset.mem_range.2 hM) h

/-- The latency of a pulse against its minimum phase is the number of its sample. -/
theorem minPhaseLatency_pulse (fast : ℕ → ℕ) (hf : ∀ m, m ≤ fast m) (q n p : ℕ) (a : ℝ) (ha : 0 < a)
    (hp : p + 1 < n) : minPhaseLatency hilbertIm fast q [pulse n p a] = .ok [(p : ℝ)] := by
  have hMn : n ≤ fast (max (n * q) n) := le_trans (le_max_right _ _) (hf _)
  unfold minPhaseLatency
  have h1 : [pulse n p a].mapM (minIr fast q) = .ok [pulse (fast (max (n * q) n)) 0 a] := by
    rw [List.mapM_cons, minIr_pulse fast hf q n p a ha (by omega)]
    rfl
  rw [h1]
  dsimp only
  unfold FractionalPeak.fractional2
  have h2 : (List.range [pulse (fast (max (n * q) n)) 0 a].length).map (fun c =>
      correlate ([pulse (fast (max (n * q) n)) 0 a].getD c []) ([pulse n p a].getD c [])) =
      [pulse (fast (max (n * q) n) + n - 1) (n - 1 - p) (a * a)] := by
    rw [← correlate_pulse _ n p a (by omega) (by omega)]
    rfl
  rw [h2, peaks_pulse _ _ _ (mul_ne_zero ha.ne' ha.ne') (by omega)]
  simp only [bind, Except.bind, pure, Except.pure, List.map_cons, List.map_nil, List.getD_cons_zero,
    pulse_length]
  congr 2
  rw [Nat.cast_sub (by omega), Nat.cast_sub (by omega)]
  push_cast
  ring

/-- A pure delay has phase zero without its latency: with the option "peak" and with "min_phase" (and
the transform of Hilbert), at every frequency. -/
theorem C151_pure_delay (fast : ℕ → ℕ) (hf : ∀ m, m ≤ fast m) (N fs n p : ℕ) (a : ℝ) (ha : 0 < a)
    (hfs : fs ≠ 0) (hp : p + 1 < n) (hN : n ≤ N) :
    phases hilbertIm fast N fs [pulse n p a] (.text "peak") = .ok [List.replicate (N / 2 + 1) 0] ∧
    phases hilbertIm fast N fs [pulse n p a] (.text "min_phase") = .ok [List.replicate (N / 2 + 1) 0] := by
  constructor
  · unfold phases
    dsimp only
    rw [if_pos (by decide +kernel), peaks_pulse n p a ha.ne' hp]
    exact removeAll_pulse N fs n p a ha hfs (by omega) hN
  · unfold phases
    dsimp only
    rw [if_neg (by decide +kernel), if_pos (by decide +kernel), minPhaseLatency_pulse fast hf 8 n p a ha hp]
    exact removeAll_pulse N fs n p a ha hfs (by omega) hN

/-- Concrete case: the conditions of the theorem about delays hold for a pulse. -/
example (fast : ℕ → ℕ) (hf : ∀ m, m ≤ fast m) :
    phases hilbertIm fast 401 48000 [delayed 1 (pulse 401 200 3)] (.text "Peak") =
      phases hilbertIm fast 401 48000 [pulse 401 200 3] (.text "Peak") := by
  have hv := pulse_getD 401 200 3 (by norm_num)
  have h := (C151_delay hilbertIm fast hf 401 48000 1 401 (by norm_num) (by norm_num) le_rfl (by norm_num)
    [pulse 401 200 3] (by simp [pulse_length]) ?_ ?_).1 "Peak" (by decide +kernel) ?_
  · exact h
  · intro x hx i hi
    rw [List.mem_singleton.1 hx] at hi ⊢
    rw [pulse_length] at hi
    rw [hv, if_neg (by omega)]
  · intro x hx k _
    rw [List.mem_singleton.1 hx, pulse_rfft 401 401 200 3 (by norm_num) le_rfl]
    refine mul_ne_zero (by norm_num) fun h => ?_
    have := norm_e 401 (-(k * (200 : ℕ)))
    rw [h] at this
    simp at this
  · intro x hx p hp h
    rw [List.mem_singleton.1 hx] at hp h ⊢
    rw [pulse_length] at hp ⊢
    have := h 200 (by rw [pulse_length]; norm_num)
    rw [hv, hv, if_pos rfl] at this
    by_cases hp2 : p = 200
    · omega
    · rw [if_neg hp2] at this
      norm_num at this

end Verif.Latency
