import Verif.Lemmas.IIRFilter
import Verif.Lemmas.DifferenceEq
import Verif.Lemmas.FilterBank
import Verif.Props.C02

/-! Realtime filters whose answers are a function of the inputs of the channel. -/

namespace Verif

variable {K : Type} {O : Type}

/-- The answers on existing channels are a function of the current and the previous inputs of the
channel (most recent first); calls on other channels raise IndexError and change nothing. -/
structure Implements (F : RTFilter K O) (f : List K → O) : Prop where
  answer : ∀ h x ch, ch < nChannels h → F.answer h x ch = .ok (f (x :: pastInputs ch h))
  refused : ∀ h x ch, nChannels h ≤ ch → F.answer h x ch = .error .indexError

/-- The values of `f` on all tails: the outputs belonging to the inputs `xs`, most recent first. -/
def mapTails (f : List K → K) (xs : List K) : List K :=
  (List.range xs.length).map fun j => f (xs.drop j)

theorem mapTails_cons (f : List K → K) (x : K) (xs : List K) :
    mapTails f (x :: xs) = f (x :: xs) :: mapTails f xs := by
  unfold mapTails
  rw [List.length_cons, List.range_succ_eq_map, List.map_cons, List.map_map]
  simp [Function.comp_def]

theorem length_mapTails (f : List K → K) (xs : List K) : (mapTails f xs).length = xs.length := by
  simp [mapTails]

/-- The history as seen behind the filter: every accepted sample is replaced by `sel` of the sample
and the answer, rejected samples disappear. -/
def seen (F : RTFilter K O) (sel : K → O → K) (h : List (Op K)) : List (Op K) :=
  (h.foldl (fun (p : F.State × List (Op K)) op =>
    (F.exec p.1 op,
      match op with
      | .sample x c =>
        match (F.process p.1 x c).1 with
        | .ok y => p.2 ++ [.sample (sel x y) c]
        | .error _ => p.2
      | op => p.2 ++ [op])) (F.init, [])).2

theorem seen_snoc (F : RTFilter K O) (sel : K → O → K) (h : List (Op K)) (op : Op K) :
    seen F sel (h ++ [op]) = match op with
      | .sample x c =>
        match F.answer h x c with
        | .ok y => seen F sel h ++ [.sample (sel x y) c]
        | .error _ => seen F sel h
      | op => seen F sel h ++ [op] := by
  have hfst : ∀ h : List (Op K), (h.foldl (fun (p : F.State × List (Op K)) op =>
    (F.exec p.1 op,
      match op with
      | .sample x c =>
        match (F.process p.1 x c).1 with
        | .ok y => p.2 ++ [.sample (sel x y) c]
        | .error _ => p.2
      | op => p.2 ++ [op])) (F.init, [])).1 = F.after h := by
    intro h
    induction h using List.reverseRecOn with
    | nil => rfl
    | append_singleton h op ih =>
      rw [RTFilter.after_snoc, List.foldl_append, List.foldl_cons, List.foldl_nil, ih]
  unfold seen RTFilter.answer
  rw [← hfst h, List.foldl_append, List.foldl_cons, List.foldl_nil]

/-- Behind the filter there are the same channels, and the inputs are the selected values. -/
theorem Implements.seen {F : RTFilter K O} {f : List K → O} (hF : Implements F f)
    (sel : K → O → K) (g : List K → K) (hg : ∀ x xs, g (x :: xs) = sel x (f (x :: xs)))
    (h : List (Op K)) :
    nChannels (seen F sel h) = nChannels h ∧
      ∀ ch, pastInputs ch (Verif.seen F sel h) = mapTails g (pastInputs ch h) := by
  induction h using List.reverseRecOn with
  | nil => exact ⟨rfl, fun _ => rfl⟩
  | append_singleton h op ih =>
    obtain ⟨ihn, ihp⟩ := ih
    rw [seen_snoc, nChannels_snoc]
    cases op with
    | reset =>
      exact ⟨by simp only [nChannels_snoc, ihn], fun ch => by simp only [pastInputs_snoc]; rfl⟩
    | setChannels m =>
      exact ⟨by simp only [nChannels_snoc], fun ch => by simp only [pastInputs_snoc]; rfl⟩
    | sample x c =>
      dsimp only
      by_cases hc : c < nChannels h
      · rw [hF.answer h x c hc]
        refine ⟨by simp only [nChannels_snoc, ihn], fun ch => ?_⟩
        simp only [pastInputs_snoc, ihn, hc, and_true]
        by_cases hcc : c = ch
        · subst hcc
          simp only [if_true, mapTails_cons, ihp, hg]
        · simp only [hcc, if_false, ihp]
      · rw [hF.refused h x c (by omega)]
        refine ⟨ihn, fun ch => ?_⟩
        simp only [pastInputs_snoc, hc, and_false, if_false, ihp]

theorem mapTails_id (g : List K → K) (hg : ∀ x xs, g (x :: xs) = x) (xs : List K) :
    mapTails g xs = xs := by
  induction xs with
  | nil => rfl
  | cons x xs ih => rw [mapTails_cons, hg, ih]

/-! ### Difference equations -/

section
variable [Field K]

/-- The current output of a filter with the transfer function `H`. -/
noncomputable def lastOut (H : PowerSeries K) (xs : List K) : K :=
  PowerSeries.coeff (xs.length - 1) (H * zseries xs.reverse)

theorem zseries_agree_append (x y : List K) : AgreeUpTo x.length (zseries (x ++ y)) (zseries x) := by
  intro n hn
  rw [zseries_coeff, zseries_coeff, List.getD_append _ _ _ _ hn]

/-- The outputs of a filter with the transfer function `H` in the order of time. -/
theorem mapTails_agree (H : PowerSeries K) (xs : List K) :
    AgreeUpTo xs.length (zseries (mapTails (lastOut H) xs).reverse) (H * zseries xs.reverse) := by
  induction xs with
  | nil => intro n hn; simp at hn
  | cons x xs ih =>
    intro n hn
    rw [mapTails_cons, List.reverse_cons, List.reverse_cons]
    by_cases hlt : n < xs.length
    · have h1 := zseries_agree_append (mapTails (lastOut H) xs).reverse [lastOut H (x :: xs)] n
        (by rw [List.length_reverse, length_mapTails]; exact hlt)
      have h2 := (zseries_agree_append xs.reverse [x]).mul_left H n (by simpa using hlt)
      rw [h1, h2, ih n hlt]
    · have hn' : n = xs.length := by
        rw [List.length_cons] at hn
        omega
      subst hn'
      rw [zseries_coeff, List.getD_append_right _ _ _ _ (by simp [length_mapTails])]
      simp [length_mapTails, lastOut]

theorem lastOut_mapTails (G H : PowerSeries K) (xs : List K) :
    lastOut G (mapTails (lastOut H) xs) = lastOut (G * H) xs := by
  unfold lastOut
  rw [length_mapTails]
  cases xs with
  | nil =>
    have : zseries ([] : List K) = 0 := by
      ext n; rw [zseries_coeff]; simp
    simp [mapTails, this]
  | cons x xs =>
    rw [mul_assoc]
    exact (mapTails_agree H (x :: xs)).mul_left G _ (by simp)

/-- The convolution sum of a coefficient list with the most recent values. -/
theorem coeff_zseries_mul (a ys : List K) (hy : ys ≠ []) :
    PowerSeries.coeff (ys.length - 1) (zseries a * zseries ys.reverse) = tapSum a ys := by
  have hp := List.length_pos_of_ne_nil hy
  rw [PowerSeries.coeff_mul, Finset.Nat.sum_antidiagonal_eq_sum_range_succ
      (fun i j => PowerSeries.coeff i (zseries a) * PowerSeries.coeff j (zseries ys.reverse)),
    show (ys.length - 1).succ = ys.length by omega]
  have e1 : ∀ i ∈ Finset.range ys.length, PowerSeries.coeff i (zseries a) *
      PowerSeries.coeff (ys.length - 1 - i) (zseries ys.reverse) = a.getD i 0 * ys.getD i 0 := by
    intro i hi
    have := Finset.mem_range.1 hi
    rw [zseries_coeff, zseries_coeff]
    congr 1
    rw [List.getD_eq_getElem _ _ (by simp; omega), List.getD_eq_getElem _ _ this, List.getElem_reverse]
    congr 1
    omega
  rw [Finset.sum_congr rfl e1]
  unfold tapSum
  by_cases hlt : a.length ≤ ys.length
  · symm
    refine Finset.sum_subset (Finset.range_mono hlt) fun i _ hi => ?_
    rw [List.getD_eq_default a _ (by simpa using hi), zero_mul]
  · refine Finset.sum_subset (Finset.range_mono (by omega)) fun i _ hi => ?_
    rw [List.getD_eq_default ys _ (by simpa using hi), mul_zero]

omit [Field K] in
theorem mapTails_drop (f : List K → K) (xs : List K) (j : ℕ) :
    (mapTails f xs).drop j = mapTails f (xs.drop j) := drop_map_range xs f j

/-- The outputs of the transfer function `B / A` solve the difference equation. -/
theorem ratio_solves (b a : List K) (ha : a.getD 0 0 ≠ 0) (xs : List K) :
    SolvesDE b a xs (mapTails (lastOut (ratio b a)) xs) := by
  refine ⟨length_mapTails _ _, fun j => ?_⟩
  rw [mapTails_drop]
  generalize xs.drop j = zs
  cases zs with
  | nil => simp [mapTails, tapSum_nil_right]
  | cons z zs =>
    rw [← coeff_zseries_mul a _ (by simp [mapTails_cons]), ← coeff_zseries_mul b _ (by simp),
      length_mapTails]
    rw [(mapTails_agree (ratio b a) (z :: zs)).mul_left (zseries a) _ (by simp)]
    congr 1
    have hne : PowerSeries.constantCoeff (zseries a) ≠ 0 := by
      rw [← PowerSeries.coeff_zero_eq_constantCoeff_apply, zseries_coeff]
      exact ha
    unfold ratio
    linear_combination (zseries b * zseries (z :: zs).reverse) * PowerSeries.mul_inv_cancel _ hne

/-- The log of an IIR filter solves the difference equation. -/
theorem iir_log_solves (b a : List K) (ha : a.getD 0 0 ≠ 0) (ho : 1 ≤ IIRFilter.order b a)
    (h : List (Op K)) (ch : ℕ) :
    SolvesDE b a (pastInputs ch h) (((IIRFilter.filter b a).log ch h).map Prod.snd) ∧
      ((IIRFilter.filter b a).log ch h).map Prod.fst = pastInputs ch h := by
  have hne : a ≠ [] := by rintro rfl; simp at ha
  obtain ⟨a0, as, rfl⟩ := List.exists_cons_of_ne_nil hne
  induction h using List.reverseRecOn with
  | nil => exact ⟨⟨rfl, fun j => by simp [RTFilter.log_nil, pastInputs_nil, tapSum_nil_right]⟩, rfl⟩
  | append_singleton h op ih =>
    rw [pastInputs_snoc, RTFilter.log_snoc]
    cases op with
    | reset => exact ⟨⟨rfl, fun j => by simp [tapSum_nil_right]⟩, rfl⟩
    | setChannels m => exact ⟨⟨rfl, fun j => by simp [tapSum_nil_right]⟩, rfl⟩
    | sample x c =>
      by_cases hcc : c = ch
      · subst hcc
        simp only [if_true, true_and]
        by_cases hc : c < nChannels h
        · obtain ⟨y, hy, hde, hlog⟩ := IIRFilter.C02_iir_history b (a0 :: as) ha ho h x c hc
          rw [hy]
          simp only [hc, if_true, List.map_cons]
          refine ⟨⟨by simp [ih.1.1], fun j => ?_⟩, by rw [hlog]⟩
          cases j with
          | zero =>
            rw [List.drop_zero, List.drop_zero, tapSum_cons]
            simpa using hde
          | succ j => simpa using ih.1.2 j
        · rw [IIRFilter.C02_iir_bad_channel b (a0 :: as) ho h x c (by omega)]
          simp only [hc, if_false]
          exact ih
      · simp only [hcc, if_false, false_and]
        exact ih

/-- The sample-by-sample IIR filter has the transfer function `B / A`. -/
theorem iir_implements (b a : List K) (ha : a.getD 0 0 ≠ 0) (ho : 1 ≤ IIRFilter.order b a) :
    Implements (IIRFilter.filter b a) (lastOut (ratio b a)) := by
  refine ⟨fun h x ch hc => ?_, fun h x ch hc => IIRFilter.C02_iir_bad_channel b a ho h x ch hc⟩
  obtain ⟨y, hy, -⟩ := IIRFilter.C02_iir_history b a ha ho h x ch hc
  have h1 := (iir_log_solves b a ha ho (h ++ [.sample x ch]) ch).1
  rw [pastInputs_snoc, RTFilter.log_snoc] at h1
  simp only [if_true, hc, and_self, hy, List.map_cons] at h1
  have h2 := ratio_solves b a ha (x :: pastInputs ch h)
  have h3 := solvesDE_unique b a ha _ _ _ h1 h2
  rw [mapTails_cons] at h3
  rw [hy, (List.cons.inj h3).1]

end
end Verif
