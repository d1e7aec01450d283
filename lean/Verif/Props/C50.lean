import Verif.Model.Merge
import Verif.Props.C36

/-!
# C50: merging filters gives the cascade
-/

set_option linter.unusedSectionVars false

namespace Verif.Bank

open Verif.LFilter Verif.SignalData

variable {K : Type} [Field K] [LinearOrder K] [IsStrictOrderedRing K]

/-- Filtering a channel with one filter after the other. -/
def cascade (Fs : List (Filt K)) (x : List K) : List K := Fs.foldl (fun x F => F.channel x) x

theorem zseries_fullConv (b x : List K) :
    zseries (fullConv b x) = zseries b * zseries x := by
  ext n
  rw [zseries_coeff, PowerSeries.coeff_mul, Finset.Nat.sum_antidiagonal_eq_sum_range_succ
      (fun i j => PowerSeries.coeff i (zseries b) * PowerSeries.coeff j (zseries x))]
  simp only [zseries_coeff]
  rw [fullConv_getD]
  by_cases hlt : b.length ≤ n + 1
  · rw [← Finset.sum_subset (Finset.range_mono hlt)]
    · refine Finset.sum_congr rfl fun m hm => ?_
      have := Finset.mem_range.mp hm
      rw [if_pos (by omega)]
    · intro m _ hm
      rw [List.getD_eq_default b _ (by simpa using hm), zero_mul]
  · rw [← Finset.sum_subset (Finset.range_mono (by omega : n + 1 ≤ b.length))]
    · refine Finset.sum_congr rfl fun m hm => ?_
      have := Finset.mem_range.mp hm
      rw [if_pos (by omega)]
    · intro m _ hm
      rw [if_neg (by simpa using hm)]

theorem fullConv_ne_nil (b x : List K) (hb : b ≠ []) (hx : x ≠ []) : fullConv b x ≠ [] := by
  have h1 := List.length_pos_of_ne_nil hb
  have h2 := List.length_pos_of_ne_nil hx
  rw [← List.length_pos_iff, length_fullConv]
  omega

theorem cascade_length (Fs : List (Filt K)) (hF : ∀ F ∈ Fs, F.Proper) (x : List K) :
    (cascade Fs x).length = x.length := by
  induction Fs generalizing x with
  | nil => rfl
  | cons F Fs ih =>
    show (cascade Fs (F.channel x)).length = _
    rw [ih (fun G hG => hF G (by simp [hG])), channel_length F (hF F (by simp))]

theorem cascade_agree (Fs : List (Filt K)) (hF : ∀ F ∈ Fs, F.Proper) (x : List K) :
    AgreeUpTo x.length (zseries (cascade Fs x)) ((Fs.map Filt.H).prod * zseries x) := by
  induction Fs generalizing x with
  | nil => simpa [cascade] using AgreeUpTo.refl _ _
  | cons F Fs ih =>
    have h1 := ih (fun G hG => hF G (by simp [hG])) (F.channel x)
    rw [channel_length F (hF F (by simp))] at h1
    have h2 := (channel_agree F (hF F (by simp)) x).mul_left (Fs.map Filt.H).prod
    refine (h1.trans h2).trans ?_
    rw [List.map_cons, List.prod_cons,
      show ∀ p q r : PowerSeries K, p * (q * r) = q * p * r from fun p q r => by ring]
    exact AgreeUpTo.refl _ _

theorem agree_list (x y : List K) (h : x.length = y.length)
    (hz : AgreeUpTo x.length (zseries x) (zseries y)) : x = y := by
  refine ext_getD x y h fun k hk => ?_
  have := hz k hk
  rwa [zseries_coeff, zseries_coeff] at this

/-- The conversion of the coefficients of this filter to sections keeps its transfer function
(only needed for filters stored as `b`, `a` with a recursive part). -/
def ConvertsWell (tf2sos : List K → List K → List (List K × List K)) (F : Filt K) : Prop :=
  (Filt.sos (F.sections tf2sos)).H = F.H ∧ (Filt.sos (F.sections tf2sos)).Proper

theorem fold_fir (rest : List (FilterObj K)) (hp : ∀ g ∈ rest, g.filt.Proper)
    (hf : ∀ g ∈ rest, g.filt.isFir = true) (b : List K) (hb : b ≠ []) :
    zseries (rest.foldl (fun b g => fullConv b g.filt.num) b) =
      zseries b * (rest.map fun g => g.filt.H).prod ∧
    rest.foldl (fun b g => fullConv b g.filt.num) b ≠ [] := by
  induction rest generalizing b with
  | nil => simp [hb]
  | cons g rest ih =>
    have hg := hf g (by simp)
    have hgp := hp g (by simp)
    have hnum : g.filt.num ≠ [] ∧ g.filt.H = zseries g.filt.num := by
      cases hgf : g.filt with
      | fir b' =>
        rw [hgf] at hgp
        exact ⟨hgp, rfl⟩
      | ba b' a' => rw [hgf] at hg; exact absurd hg (by simp [Filt.isFir])
      | sos s => rw [hgf] at hg; exact absurd hg (by simp [Filt.isFir])
    have := ih (fun g' h' => hp g' (by simp [h'])) (fun g' h' => hf g' (by simp [h']))
      (fullConv b g.filt.num) (fullConv_ne_nil _ _ hb hnum.1)
    rw [List.foldl_cons, List.map_cons, List.prod_cons]
    refine ⟨?_, this.2⟩
    rw [this.1, zseries_fullConv, hnum.2, mul_assoc]

theorem fold_sos (tf2sos : List K → List K → List (List K × List K)) (rest : List (FilterObj K))
    (hc : ∀ g ∈ rest, ConvertsWell tf2sos g.filt) (s : List (List K × List K))
    (hs : (Filt.sos s).Proper) :
    (Filt.sos (rest.foldl (fun s g => s ++ g.filt.sections tf2sos) s)).H =
      (Filt.sos s).H * (rest.map fun g => g.filt.H).prod ∧
    (Filt.sos (rest.foldl (fun s g => s ++ g.filt.sections tf2sos) s)).Proper := by
  induction rest generalizing s with
  | nil => simp [hs]
  | cons g rest ih =>
    have hg := hc g (by simp)
    have := ih (fun g' h' => hc g' (by simp [h'])) (s ++ g.filt.sections tf2sos) (by
      intro t ht
      rcases List.mem_append.mp ht with h | h
      · exact hs t h
      · exact hg.2 t h)
    rw [List.foldl_cons, List.map_cons, List.prod_cons]
    refine ⟨?_, this.2⟩
    have happ : (Filt.sos (s ++ g.filt.sections tf2sos)).H =
        (Filt.sos s).H * (Filt.sos (g.filt.sections tf2sos)).H := by
      simp [Filt.H]
    rw [this.1, happ, hg.1, mul_assoc]

/-- Transfer function of the merged filter. -/
theorem merge_H (tf2sos : List K → List K → List (List K × List K)) (fs : List (FilterObj K))
    (m : FilterObj K) (hm : mergeFilters tf2sos fs = .ok m) (hp : ∀ f ∈ fs, f.filt.Proper)
    (hc : ∀ f ∈ fs, f.filt.isFir = false → ConvertsWell tf2sos f.filt) :
    m.filt.H = (fs.map fun f => f.filt.H).prod ∧ m.filt.Proper := by
  cases fs with
  | nil => exact absurd hm (by simp [mergeFilters])
  | cons f rest =>
    unfold mergeFilters at hm
    simp only at hm
    by_cases h1 : rest = []
    · rw [if_pos h1] at hm; cases hm
    rw [if_neg h1] at hm
    by_cases h2 : (rest.all fun g => f.rate == g.rate) = false
    · rw [if_pos h2] at hm; cases hm
    rw [if_neg h2] at hm
    by_cases h3 : f.filt.isFir
    · rw [if_pos h3] at hm
      by_cases h4 : (rest.all fun g => g.filt.isFir) = false
      · rw [if_pos h4] at hm; cases hm
      rw [if_neg h4] at hm
      have := (Except.ok.inj hm).symm
      subst this
      have hall : ∀ g ∈ rest, g.filt.isFir = true := by simpa using h4
      have hfp := hp f (by simp)
      cases hff : f.filt with
      | fir b =>
        rw [hff] at hfp
        have h5 := fold_fir rest (fun g hg => hp g (by simp [hg])) hall b hfp
        rw [List.map_cons, List.prod_cons, hff]
        exact h5
      | ba b a => rw [hff] at h3; exact absurd h3 (by simp [Filt.isFir])
      | sos s => rw [hff] at h3; exact absurd h3 (by simp [Filt.isFir])
    · rw [if_neg h3] at hm
      by_cases h4 : (rest.all fun g => !g.filt.isFir) = false
      · rw [if_pos h4] at hm; cases hm
      rw [if_neg h4] at hm
      have := (Except.ok.inj hm).symm
      subst this
      have hall : ∀ g ∈ rest, g.filt.isFir = false := by simpa using h4
      have hfc := hc f (by simp) (by simpa using h3)
      have h5 := fold_sos tf2sos rest (fun g hg => hc g (by simp [hg]) (hall g hg)) _ hfc.2
      rw [List.map_cons, List.prod_cons, ← hfc.1]
      exact h5

/-- The merged filter gives for every channel the output of one filter after the other. -/
theorem C50_merged_is_cascade (tf2sos : List K → List K → List (List K × List K))
    (fs : List (FilterObj K)) (m : FilterObj K) (hm : mergeFilters tf2sos fs = .ok m)
    (hp : ∀ f ∈ fs, f.filt.Proper)
    (hc : ∀ f ∈ fs, f.filt.isFir = false → ConvertsWell tf2sos f.filt) (x : List K) :
    m.filt.channel x = cascade (fs.map (·.filt)) x := by
  obtain ⟨hH, hP⟩ := merge_H tf2sos fs m hm hp hc
  have hp' : ∀ F ∈ fs.map (·.filt), F.Proper := by
    intro F hF
    obtain ⟨f, hf, rfl⟩ := List.mem_map.mp hF
    exact hp f hf
  have hlen : (m.filt.channel x).length = (cascade (fs.map (·.filt)) x).length := by
    rw [channel_length _ hP, cascade_length _ hp']
  refine agree_list _ _ hlen ?_
  rw [channel_length _ hP]
  refine (channel_agree _ hP x).trans ?_
  rw [hH]
  have := (cascade_agree (fs.map (·.filt)) hp' x).symm
  rwa [List.map_map] at this

/-- FIR filters alone: no assumption about conversions is needed. -/
theorem C50_merged_fir (tf2sos : List K → List K → List (List K × List K))
    (fs : List (FilterObj K)) (m : FilterObj K) (hm : mergeFilters tf2sos fs = .ok m)
    (hp : ∀ f ∈ fs, f.filt.Proper) (hfir : ∀ f ∈ fs, f.filt.isFir = true) (x : List K) :
    m.filt.channel x = cascade (fs.map (·.filt)) x :=
  C50_merged_is_cascade tf2sos fs m hm hp
    (fun f hf h => by rw [hfir f hf] at h; exact absurd h (by simp)) x

/-- Filters stored as second-order sections need no conversion either. -/
theorem C50_sections_convert (tf2sos : List K → List K → List (List K × List K))
    (s : List (List K × List K)) (h : (Filt.sos s).Proper) : ConvertsWell tf2sos (.sos s) :=
  ⟨rfl, h⟩

/-- On a signal that does not constrain its amplitude, filtering with the merged filter has the
same result as sequential filtering: same shape and same samples. -/
theorem C50_signals (tf2sos : List K → List K → List (List K × List K))
    (fs : List (FilterObj K)) (m : FilterObj K) (hm : mergeFilters tf2sos fs = .ok m)
    (hp : ∀ f ∈ fs, f.filt.Proper)
    (hc : ∀ f ∈ fs, f.filt.isFir = false → ConvertsWell tf2sos f.filt) (s : State K)
    (hs : Shaped s) (hcon : s.constrain = false) :
    ∃ t u, filterSignal m.filt s = .ok t ∧ sequential (fs.map (·.filt)) s = .ok u ∧
      t.HasShape s.re.rows s.re.cols ∧ u.HasShape s.re.rows s.re.cols ∧
      ∀ r < s.re.rows, ∀ c < s.re.cols, t.sample r c = u.sample r c := by
  obtain ⟨hH, hP⟩ := merge_H tf2sos fs m hm hp hc
  obtain ⟨t, ht, hts, -, -, htv⟩ := filterSignal_ok m.filt hP s hs hcon
  obtain ⟨u, hu, hus, huv⟩ := C36_sequential (fs.map (·.filt)) (by
    intro F hF
    obtain ⟨f, hf, rfl⟩ := List.mem_map.mp hF
    exact hp f hf) s hs hcon
  refine ⟨t, u, ht, hu, hts, hus, fun r hr c hc => ?_⟩
  have h1 := htv c hc r hr
  have h2 := huv c hc r hr
  rw [List.map_map] at h2
  rw [hH] at h1
  have h3 := h1.trans h2.symm
  unfold chanZ at h3
  rw [zseries_coeff, zseries_coeff, getD_map_range, getD_map_range, hts.1, hus.1,
    if_pos hr, if_pos hr] at h3
  exact h3

/-- A list is merged exactly if it has at least two filters, of equal sampling rates, all FIR or
all IIR; otherwise an AssertionError is raised. -/
theorem C50_accepted (tf2sos : List K → List K → List (List K × List K))
    (fs : List (FilterObj K)) :
    ((∃ m, mergeFilters tf2sos fs = .ok m) ↔ 2 ≤ fs.length ∧
      (∀ f ∈ fs, ∀ g ∈ fs, f.rate = g.rate) ∧
      ∀ f ∈ fs, ∀ g ∈ fs, f.filt.isFir = g.filt.isFir) ∧
    ((¬∃ m, mergeFilters tf2sos fs = .ok m) → mergeFilters tf2sos fs = .error .assertionError) := by
  cases fs with
  | nil => simp [mergeFilters]
  | cons f rest =>
    unfold mergeFilters
    simp only
    by_cases h1 : rest = []
    · subst h1
      simp
    rw [if_neg h1]
    have hlen : 2 ≤ (f :: rest).length := by
      have := List.length_pos_of_ne_nil h1
      simp only [List.length_cons]
      omega
    by_cases h2 : (rest.all fun g => f.rate == g.rate) = false
    · rw [if_pos h2]
      have : ∃ g ∈ rest, f.rate ≠ g.rate := by simpa using h2
      obtain ⟨g, hg, hne⟩ := this
      refine ⟨⟨fun ⟨m, hm⟩ => (nomatch hm), fun h => absurd (h.2.1 f (by simp) g (by simp [hg])) hne⟩,
        fun _ => rfl⟩
    rw [if_neg h2]
    have hr : ∀ g ∈ rest, f.rate = g.rate := by simpa using h2
    have hr' : ∀ a ∈ f :: rest, ∀ b ∈ f :: rest, a.rate = b.rate := by
      have : ∀ a ∈ f :: rest, f.rate = a.rate := by
        intro a ha
        rcases List.mem_cons.mp ha with rfl | ha
        · rfl
        · exact hr a ha
      intro a ha b hb
      rw [← this a ha, ← this b hb]
    have hk : ∀ k : Bool, f.filt.isFir = k → (∀ g ∈ rest, g.filt.isFir = k) →
        ∀ a ∈ f :: rest, ∀ b ∈ f :: rest, a.filt.isFir = b.filt.isFir := by
      intro k hf hg
      have : ∀ a ∈ f :: rest, a.filt.isFir = k := by
        intro a ha
        rcases List.mem_cons.mp ha with rfl | ha
        · exact hf
        · exact hg a ha
      intro a ha b hb
      rw [this a ha, this b hb]
    by_cases h3 : f.filt.isFir = true
    · rw [if_pos h3]
      by_cases h4 : (rest.all fun g => g.filt.isFir) = false
      · rw [if_pos h4]
        have : ∃ g ∈ rest, g.filt.isFir = false := by simpa using h4
        obtain ⟨g, hg, hne⟩ := this
        refine ⟨⟨fun ⟨m, hm⟩ => (nomatch hm), fun h => ?_⟩, fun _ => rfl⟩
        have := h.2.2 f (by simp) g (by simp [hg])
        rw [h3, hne] at this
        cases this
      · rw [if_neg h4]
        exact ⟨⟨fun _ => ⟨hlen, hr', hk true h3 (by simpa using h4)⟩, fun _ => ⟨_, rfl⟩⟩,
          fun h => absurd ⟨_, rfl⟩ h⟩
    · rw [if_neg h3]
      have h3' : f.filt.isFir = false := by simpa using h3
      by_cases h4 : (rest.all fun g => !g.filt.isFir) = false
      · rw [if_pos h4]
        have : ∃ g ∈ rest, g.filt.isFir = true := by simpa using h4
        obtain ⟨g, hg, hne⟩ := this
        refine ⟨⟨fun ⟨m, hm⟩ => (nomatch hm), fun h => ?_⟩, fun _ => rfl⟩
        have := h.2.2 f (by simp) g (by simp [hg])
        rw [h3', hne] at this
        cases this
      · rw [if_neg h4]
        exact ⟨⟨fun _ => ⟨hlen, hr', hk false h3' (by simpa using h4)⟩, fun _ => ⟨_, rfl⟩⟩,
          fun h => absurd ⟨_, rfl⟩ h⟩

/-- Concrete case: two FIR filters and a signal of three samples. -/
example : (mergeFilters (fun _ _ => []) [⟨48000, .fir [1, 2]⟩, ⟨48000, .fir [3, 4]⟩] :
      Except Err (FilterObj ℚ)).toOption.map (fun m => (m.filt.num, m.filt.channel [1, 0, 5])) =
      some ([3, 10, 8], [3, 10, 23]) ∧
    cascade [.fir [1, 2], .fir [3, 4]] ([1, 0, 5] : List ℚ) = [3, 10, 23] := by
  decide +kernel

end Verif.Bank
