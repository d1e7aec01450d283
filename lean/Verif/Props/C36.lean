import Verif.Lemmas.FilterBank
import Mathlib.RingTheory.PowerSeries.Trunc
import Mathlib.Algebra.Polynomial.Eval.Degree
import Mathlib.Algebra.Polynomial.BigOperators
import Mathlib.Algebra.Field.Rat
import Mathlib.Algebra.Order.Ring.Rat

/-!
# C36: filter bank modes agree with their definition and with the analytic transfer function
-/

set_option linter.unusedSectionVars false

namespace Verif.Bank

open SignalData LFilter

variable {K : Type} [Field K] [LinearOrder K] [IsStrictOrderedRing K]

/-- z-transform of channel `c` of a signal. -/
noncomputable def chanZ (s : State K) (c : ℕ) : PowerSeries K :=
  zseries ((List.range s.re.rows).map fun r => s.sample r c)

/-- Signals as they come out of the constructor: at least one channel, not more channels
than samples, not a single sample. -/
structure Shaped (s : State K) : Prop where
  one : 1 ≤ s.re.cols
  tall : s.re.cols ≤ s.re.rows
  more : s.re.rows ≠ 1

theorem chanZ_eq (s : State K) (c : ℕ) (hc : c < s.re.cols) : chanZ s c = zseries (colOf s.re c) := by
  unfold chanZ colOf
  congr 1
  refine List.map_congr_left fun r hr => ?_
  simp [State.sample, List.mem_range.mp hr, hc]

/-- Filtering without amplitude constraint. -/
theorem filterSignal_ok (F : Filt K) (hF : F.Proper) (s : State K) (hs : Shaped s)
    (hcon : s.constrain = false) :
    ∃ t, filterSignal F s = .ok t ∧ t.HasShape s.re.rows s.re.cols ∧ Shaped t ∧
      t.constrain = false ∧ ∀ c < s.re.cols, AgreeUpTo s.re.rows (chanZ t c) (F.H * chanZ s c) := by
  have h := copyWith_ok s (ofCols s.re.rows s.re.cols fun c => F.channel (colOf s.re c)) hs.tall
    (fun h => hs.more h.1) (by intro h; rw [hcon] at h; exact absurd h (by simp))
  refine ⟨_, h, ⟨rfl, rfl⟩, ⟨hs.one, hs.tall, hs.more⟩, hcon, fun c hc => ?_⟩
  rw [chanZ_eq s c hc, chanZ_eq _ c (by exact hc)]
  have hl : (F.channel (colOf s.re c)).length = s.re.rows := by
    rw [channel_length F hF, colOf_length]
  have h1 : colOf (ofCols s.re.rows s.re.cols fun c => F.channel (colOf s.re c)).reMat c =
      F.channel (colOf s.re c) := by
    refine ext_getD _ _ (by rw [hl]; simp [colOf, ofCols, Input.reMat]) fun k hk => ?_
    rw [colOf_getD]
    have hk' : k < s.re.rows := by simpa [colOf, ofCols, Input.reMat] using hk
    rw [if_pos (by exact hk')]
    rfl
  rw [h1]
  have h2 := channel_agree F hF (colOf s.re c)
  rw [colOf_length] at h2
  exact h2

/-- Sequential mode: every channel is multiplied by the product of the transfer
functions. -/
theorem C36_sequential (Fs : List (Filt K)) (hF : ∀ F ∈ Fs, F.Proper) (s : State K)
    (hs : Shaped s) (hcon : s.constrain = false) :
    ∃ t, sequential Fs s = .ok t ∧ t.HasShape s.re.rows s.re.cols ∧
      ∀ c < s.re.cols, AgreeUpTo s.re.rows (chanZ t c) ((Fs.map Filt.H).prod * chanZ s c) := by
  induction Fs generalizing s with
  | nil => exact ⟨s, rfl, ⟨rfl, rfl⟩, fun c _ => by simpa using AgreeUpTo.refl _ _⟩
  | cons F Fs ih =>
    obtain ⟨t, ht, hshape, hts, htc, hval⟩ := filterSignal_ok F (hF F (by simp)) s hs hcon
    obtain ⟨u, hu, hushape, huval⟩ := ih (fun G hG => hF G (by simp [hG])) t hts htc
    refine ⟨u, ?_, ?_, fun c hc => ?_⟩
    · unfold sequential at hu ⊢
      rw [List.foldlM_cons, ht]
      exact hu
    · rw [hshape.1, hshape.2] at hushape
      exact hushape
    · have h1 := huval c (by rw [hshape.2]; exact hc)
      rw [hshape.1] at h1
      have h2 := (hval c hc).mul_left (Fs.map Filt.H).prod
      refine (h1.trans h2).trans ?_
      rw [List.map_cons, List.prod_cons,
        show ∀ p q r : PowerSeries K, p * (q * r) = q * p * r from fun p q r => by ring]
      exact AgreeUpTo.refl _ _

/-- Parallel mode: band `i` is the signal filtered with filter `i`. -/
theorem C36_parallel (Fs : List (Filt K)) (hF : ∀ F ∈ Fs, F.Proper) (s : State K)
    (hs : Shaped s) (hcon : s.constrain = false) :
    ∃ ts, parallel Fs s = .ok ts ∧ List.Forall₂ (fun F t => t.HasShape s.re.rows s.re.cols ∧
      ∀ c < s.re.cols, AgreeUpTo s.re.rows (chanZ t c) (F.H * chanZ s c)) Fs ts := by
  induction Fs with
  | nil => exact ⟨[], rfl, List.Forall₂.nil⟩
  | cons F Fs ih =>
    obtain ⟨t, ht, hshape, -, -, hval⟩ := filterSignal_ok F (hF F (by simp)) s hs hcon
    obtain ⟨ts, hts, hall⟩ := ih fun G hG => hF G (by simp [hG])
    refine ⟨t :: ts, ?_, List.Forall₂.cons ⟨hshape, hval⟩ hall⟩
    unfold parallel at hts ⊢
    rw [List.mapM_cons, ht, hts]
    rfl

theorem zseries_map_add (n : ℕ) (f g : ℕ → K) :
    zseries ((List.range n).map fun r => f r + g r) =
      zseries ((List.range n).map f) + zseries ((List.range n).map g) := by
  ext k
  simp only [map_add, zseries_coeff, getD_map_range]
  split_ifs <;> simp

/-- Summed mode: every channel is multiplied by the sum of the transfer functions. -/
theorem C36_summed (Fs : List (Filt K)) (hF : ∀ F ∈ Fs, F.Proper) (s : State K)
    (hs : Shaped s) (hcon : s.constrain = false) :
    ∃ t, summed Fs s = .ok t ∧ t.HasShape s.re.rows s.re.cols ∧
      ∀ c < s.re.cols, AgreeUpTo s.re.rows (chanZ t c) ((Fs.map Filt.H).sum * chanZ s c) := by
  obtain ⟨ts, hts, hall⟩ := C36_parallel Fs hF s hs hcon
  have h := copyWith_ok s (sumOf s.re.rows s.re.cols ts) hs.tall (fun h => hs.more h.1)
    (by intro h; rw [hcon] at h; exact absurd h (by simp))
  have h' : summed Fs s = .ok ⟨(sumOf s.re.rows s.re.cols ts).reMat,
      (sumOf s.re.rows s.re.cols ts).imMat, s.constrain, 1⟩ := by
    unfold parallel at hts
    unfold summed
    rw [hts]
    exact h
  refine ⟨_, h', ⟨rfl, rfl⟩, fun c hc => ?_⟩
  · rw [chanZ_eq ⟨(sumOf s.re.rows s.re.cols ts).reMat,
      (sumOf s.re.rows s.re.cols ts).imMat, s.constrain, 1⟩ c (by exact hc)]
    have hcol : colOf (sumOf s.re.rows s.re.cols ts).reMat c =
        (List.range s.re.rows).map fun r => (ts.map fun s => s.re.val r c).sum := rfl
    show AgreeUpTo _ (zseries (colOf (sumOf s.re.rows s.re.cols ts).reMat c)) _
    rw [hcol]
    clear h h' hcol hts hF
    induction hall with
    | nil =>
      intro n hn
      simp [zseries_coeff]
    | cons hx _ ih =>
      rename_i F t Fs ts _
      simp only [List.map_cons, List.sum_cons]
      rw [zseries_map_add, add_mul]
      refine AgreeUpTo.add ?_ ih
      have h1 := hx.2 c hc
      rw [chanZ_eq _ _ (by rw [hx.1.2]; exact hc)] at h1
      unfold colOf at h1
      rw [hx.1.1] at h1
      exact h1

/-- Shape and constraint of a filtered signal, with or without amplitude constraint. -/
theorem filterSignal_shape (F : Filt K) (s t : State K) (hs : Shaped s)
    (h : filterSignal F s = .ok t) : t.constrain = s.constrain ∧ t.HasShape s.re.rows s.re.cols := by
  obtain ⟨t', ht', hcon, hshape, -⟩ := setData_scaled
    ⟨⟨0, 0, fun _ _ => 0⟩, none, s.constrain, 1⟩
    (ofCols s.re.rows s.re.cols fun c => F.channel (colOf s.re c)) hs.tall
    (fun h => hs.more h.1) hs.one
  unfold filterSignal copyWith construct at h
  rw [ht'] at h
  have h' := (Except.ok.inj h).symm
  subst h'
  exact ⟨hcon, hshape⟩

/-- Parallel mode followed by `collapse` is summed mode, for all signals (with or without
amplitude constraint) and all filter banks that are not empty. -/
theorem C36_collapse_is_summed (Fs : List (Filt K)) (hne : Fs ≠ []) (s : State K)
    (hs : Shaped s) (bands : List (State K)) (h : parallel Fs s = .ok bands) :
    collapse bands = summed Fs s := by
  unfold parallel at h
  unfold summed
  rw [h]
  cases Fs with
  | nil => exact absurd rfl hne
  | cons F Fs =>
    rw [List.mapM_cons] at h
    cases hf : filterSignal F s with
    | error e => rw [hf] at h; exact absurd h (by simp [bind, Except.bind])
    | ok t =>
      rw [hf] at h
      cases hl : Fs.mapM (fun F => filterSignal F s) with
      | error e => rw [hl] at h; exact absurd h (by simp [bind, Except.bind])
      | ok ts =>
        rw [hl] at h
        have h' : bands = t :: ts := (Except.ok.inj h).symm
        subst h'
        obtain ⟨hcon, hshape⟩ := filterSignal_shape F s t hs hf
        unfold collapse
        simp only [hshape.1, hshape.2]
        show copyWith t _ = copyWith s _
        unfold copyWith
        rw [hcon]

/-! ### The analytic transfer function -/

theorem foldl_mul {C : Type} [Field C] (l : List (Filt K)) (f : Filt K → C) (h : C) :
    l.foldl (fun h F => h * f F) h = h * (l.map f).prod := by
  induction l generalizing h with
  | nil => simp
  | cons a l ih => rw [List.foldl_cons, ih, List.map_cons, List.prod_cons]; ring

theorem foldl_add {C : Type} [Field C] (l : List (Filt K)) (f : Filt K → C) (h : C) :
    l.foldl (fun h F => h + f F) h = h + (l.map f).sum := by
  induction l generalizing h with
  | nil => simp
  | cons a l ih => rw [List.foldl_cons, ih, List.map_cons, List.sum_cons]; ring

/-- Sequential mode returns the product of the individual transfer functions, parallel mode
the list of them. -/
theorem C36_tf_partial {C : Type} [Field C] (φ : K → C) (w : C) (Fs : List (Filt K)) :
    tfSequential φ w Fs = (Fs.map (Filt.tf φ w)).prod ∧
    tfParallel φ w Fs = Fs.map (Filt.tf φ w) := by
  constructor
  · unfold tfSequential
    rw [foldl_mul, one_mul]
  · rfl

/-- Summed mode returns the sum of the individual transfer functions **plus one**: it is
never the sum. -/
theorem C36_tf_summed_wrong {C : Type} [Field C] (φ : K → C) (w : C) (Fs : List (Filt K)) :
    tfSummed φ w Fs = (Fs.map (Filt.tf φ w)).sum + 1 ∧
    tfSummed φ w Fs ≠ (Fs.map (Filt.tf φ w)).sum := by
  have h : tfSummed φ w Fs = (Fs.map (Filt.tf φ w)).sum + 1 := by
    unfold tfSummed
    rw [foldl_add, add_comm]
  refine ⟨h, ?_⟩
  rw [h]
  intro h1
  exact one_ne_zero (add_eq_left.mp h1)

/-! ### Impulse responses and transfer functions -/

/-- A sequence as a polynomial in the unit delay. -/
noncomputable def toPoly (b : List K) : Polynomial K :=
  ∑ m ∈ Finset.range b.length, Polynomial.monomial m (b.getD m 0)

theorem toPoly_coeff (b : List K) (n : ℕ) : (toPoly b).coeff n = b.getD n 0 := by
  unfold toPoly
  rw [Polynomial.finsetSum_coeff]
  simp only [Polynomial.coeff_monomial]
  rw [Finset.sum_ite_eq' (Finset.range b.length) n]
  split_ifs with h
  · rfl
  · rw [List.getD_eq_default _ _ (by simpa using h)]

theorem toPoly_coe (b : List K) : (toPoly b : PowerSeries K) = zseries b := by
  ext n
  rw [Polynomial.coeff_coe, toPoly_coeff, zseries_coeff]

theorem toPoly_degree (b : List K) : (toPoly b).natDegree ≤ b.length - 1 := by
  rw [Polynomial.natDegree_le_iff_coeff_eq_zero]
  intro n hn
  rw [toPoly_coeff, List.getD_eq_default _ _ (by omega)]

theorem evalPoly_eq {C : Type} [Field C] (φ : K →+* C) (w : C) (b : List K) :
    evalPoly (b.map φ) w = (toPoly b).eval₂ φ w := by
  unfold evalPoly toPoly
  rw [Polynomial.eval₂_finsetSum, List.length_map]
  refine Finset.sum_congr rfl fun m hm => ?_
  have := Finset.mem_range.mp hm
  rw [Polynomial.eval₂_monomial]
  congr 1
  rw [List.getD_eq_getElem _ _ (by simpa using this), List.getD_eq_getElem _ _ this]
  simp

theorem firs_H (bs : List (List K)) :
    ((bs.map Filt.fir).map Filt.H) = bs.map fun b => ((toPoly b : Polynomial K) : PowerSeries K) := by
  rw [List.map_map]
  refine List.map_congr_left fun b _ => ?_
  simp [Filt.H, toPoly_coe]

theorem agree_poly (N : ℕ) (y : List K) (hy : y.length = N) (p : Polynomial K)
    (hp : p.natDegree < N) (h : AgreeUpTo N (zseries y) (p : PowerSeries K)) : toPoly y = p := by
  ext n
  rw [toPoly_coeff]
  by_cases hn : n < N
  · have := h n hn
    rwa [zseries_coeff, Polynomial.coeff_coe] at this
  · rw [List.getD_eq_default _ _ (by omega), Polynomial.coeff_eq_zero_of_natDegree_lt (by omega)]

theorem natDegree_prod_le (bs : List (List K)) :
    ((bs.map toPoly).prod).natDegree ≤ (bs.map fun b => b.length - 1).sum := by
  induction bs with
  | nil => simp
  | cons b bs ih =>
    rw [List.map_cons, List.prod_cons, List.map_cons, List.sum_cons]
    exact le_trans Polynomial.natDegree_mul_le (Nat.add_le_add (toPoly_degree b) ih)

theorem natDegree_sum_lt (bs : List (List K)) (N : ℕ) (hN : 0 < N)
    (h : ∀ b ∈ bs, b.length ≤ N) : ((bs.map toPoly).sum).natDegree < N := by
  induction bs with
  | nil => simpa using hN
  | cons b bs ih =>
    rw [List.map_cons, List.sum_cons]
    refine lt_of_le_of_lt (Polynomial.natDegree_add_le _ _) (max_lt ?_ ?_)
    · have := toPoly_degree b
      have := h b (by simp)
      omega
    · exact ih fun c hc => h c (by simp [hc])

theorem fir_tf {C : Type} [Field C] (φ : K →+* C) (w : C) (b : List K) :
    (Filt.fir b).tf φ w = (toPoly b).eval₂ φ w := by
  simp only [Filt.tf]
  rw [evalPoly_eq]
  simp [evalPoly]

/-- Unconstrained impulse with `n` samples. -/
def impulse (n : ℕ) : State K := ⟨⟨n, 1, fun r _ => if r = 0 then 1 else 0⟩, none, false, 1⟩

theorem impulse_Z (n : ℕ) (hn : 0 < n) : chanZ (impulse n : State K) 0 = 1 := by
  ext k
  unfold chanZ
  rw [zseries_coeff, getD_map_range, PowerSeries.coeff_one]
  by_cases hk : k = 0
  · subst hk
    simp [impulse, State.sample, hn]
  · rw [if_neg hk]
    split_ifs with h1
    · simp [impulse, State.sample, hk]
    · rfl

/-- The transform of the impulse response of a bank of FIR filters (taken without amplitude
constraint and long enough) is what `get_transfer_function` returns in sequential mode; in
summed mode `get_transfer_function` is off by one at every frequency. -/
theorem C36_fir_impulse_response {C : Type} [Field C] (φ : K →+* C) (w : C)
    (bs : List (List K)) (hb : ∀ b ∈ bs, b ≠ []) (n : ℕ) (hn : 2 ≤ n) :
    ((bs.map fun b => b.length - 1).sum < n → ∃ t : State K,
      sequential (bs.map Filt.fir) (impulse n) = .ok t ∧
      ∑ k ∈ Finset.range n, φ (t.sample k 0) * w ^ k = tfSequential φ w (bs.map Filt.fir)) ∧
    ((∀ b ∈ bs, b.length ≤ n) → ∃ t : State K,
      summed (bs.map Filt.fir) (impulse n) = .ok t ∧
      ∑ k ∈ Finset.range n, φ (t.sample k 0) * w ^ k + 1 = tfSummed φ w (bs.map Filt.fir)) := by
  have hs : Shaped (impulse n : State K) :=
    ⟨le_rfl, show 1 ≤ n by omega, show n ≠ 1 by omega⟩
  have hproper : ∀ F ∈ bs.map Filt.fir, F.Proper := by
    intro F hF
    obtain ⟨b, hbm, rfl⟩ := List.mem_map.mp hF
    exact hb b hbm
  have hsum : ∀ t : State K, t.HasShape n 1 → ∀ p : Polynomial K, p.natDegree < n →
      AgreeUpTo n (chanZ t 0) (p : PowerSeries K) →
      ∑ k ∈ Finset.range n, φ (t.sample k 0) * w ^ k = p.eval₂ φ w := by
    intro t ht p hp hag
    unfold chanZ at hag
    rw [ht.1] at hag
    have h1 := agree_poly n _ (by simp) p hp hag
    rw [← h1, ← evalPoly_eq]
    unfold evalPoly
    rw [List.length_map, List.length_map, List.length_range]
    refine Finset.sum_congr rfl fun k hk => ?_
    have := Finset.mem_range.mp hk
    congr 1
    rw [List.getD_eq_getElem _ _ (by simpa using this)]
    simp
  constructor
  · intro hlen
    obtain ⟨t, ht, hshape, hval⟩ := C36_sequential (bs.map Filt.fir) hproper (impulse n) hs rfl
    refine ⟨t, ht, ?_⟩
    have h0 := hval 0 (by exact Nat.one_pos)
    rw [impulse_Z n (by omega), mul_one, firs_H] at h0
    rw [hsum t hshape (bs.map toPoly).prod (lt_of_le_of_lt (natDegree_prod_le bs) hlen) ?_]
    · rw [(C36_tf_partial φ w _).1, Polynomial.eval₂_list_prod, List.map_map, List.map_map]
      congr 1
      refine List.map_congr_left fun b _ => ?_
      simp [fir_tf]
    · have hc : (((bs.map toPoly).prod : Polynomial K) : PowerSeries K) =
          (bs.map fun b => ((toPoly b : Polynomial K) : PowerSeries K)).prod := by
        have := map_list_prod (Polynomial.coeToPowerSeries.ringHom (R := K)) (bs.map toPoly)
        simp only [Polynomial.coeToPowerSeries.ringHom_apply, List.map_map] at this
        exact this
      rw [hc]
      exact h0
  · intro hlen
    obtain ⟨t, ht, hshape, hval⟩ := C36_summed (bs.map Filt.fir) hproper (impulse n) hs rfl
    refine ⟨t, ht, ?_⟩
    have h0 := hval 0 (by exact Nat.one_pos)
    rw [impulse_Z n (by omega), mul_one, firs_H] at h0
    rw [hsum t hshape (bs.map toPoly).sum (natDegree_sum_lt bs n (by omega) hlen) ?_]
    · rw [(C36_tf_summed_wrong φ w _).1]
      congr 1
      rw [← Polynomial.coe_eval₂RingHom, map_list_sum, List.map_map, List.map_map]
      congr 1
      refine List.map_congr_left fun b _ => ?_
      simp [fir_tf]
    · have hc : (((bs.map toPoly).sum : Polynomial K) : PowerSeries K) =
          (bs.map fun b => ((toPoly b : Polynomial K) : PowerSeries K)).sum := by
        have := map_list_sum (Polynomial.coeToPowerSeries.ringHom (R := K)) (bs.map toPoly)
        simp only [Polynomial.coeToPowerSeries.ringHom_apply, List.map_map] at this
        exact this
      rw [hc]
      exact h0

/-! ### The amplitude constraint -/

/-- Value of a sample of a result. -/
def resultAt (r : Except Err (State ℚ)) (i c : ℕ) : Option ℚ :=
  match r with
  | .ok t => some (t.sample i c)
  | .error _ => none

/-- With the amplitude constraint (the default) every output is normalised on its own before
the sum, so that summed mode is not the sum of the filters up to a factor: for the impulse
and the filters `2` and `z⁻¹` the true sum is `2, 1` and the result is `1, 1`. -/
theorem C36_summed_constrained_wrong :
    resultAt (bankIrSummed [.fir [2], .fir [0, 1]] 3) 0 0 = some 1 ∧
    resultAt (bankIrSummed [.fir [2], .fir [0, 1]] 3) 1 0 = some 1 ∧
    resultAt (summed [.fir [2], .fir [0, 1]] (impulse 3)) 0 0 = some 2 ∧
    resultAt (summed [.fir [2], .fir [0, 1]] (impulse 3)) 1 0 = some 1 := by
  decide +kernel

/-- Concrete case: proper filters and a signal of proper shape. -/
example : (Filt.sos [([1, 2, 1], [1, 0, (1 : ℚ) / 2])]).Proper ∧ Shaped (impulse 3 : State ℚ) := by
  refine ⟨?_, ⟨by decide, by decide, by decide⟩⟩
  intro s hs
  simp at hs
  subst hs
  simp

end Verif.Bank
