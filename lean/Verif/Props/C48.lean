import Verif.Model.Latency
import Verif.Props.C45
import Verif.Lemmas.LFilter
import Mathlib.Algebra.BigOperators.Finprod
import Mathlib.Algebra.Order.BigOperators.Ring.Finset
import Mathlib.Algebra.Order.Field.Rat
import Mathlib.Tactic.Ring
import Mathlib.Tactic.LinearCombination
import Mathlib.Tactic.Positivity
import Mathlib.Tactic.IntervalCases

/-!
# C48: the latency of a delayed copy is the delay
-/

set_option linter.unusedSectionVars false

namespace Verif.Latency

open Helpers (FirstMin argmin_spec)
open LFilter (getD_map_range)

variable {K : Type} [Field K] [LinearOrder K] [IsStrictOrderedRing K]

/-- The sequence with zeros before and after. -/
def ext (x : List K) (j : ℤ) : K := if 0 ≤ j then x.getD j.toNat 0 else 0

/-- `y` is `x` delayed by `d` samples (advanced if `d` is negative), nothing being lost. -/
def Delayed (y x : List K) (d : ℤ) : Prop := ∀ j, ext y j = ext x (j - d)

theorem ext_nonzero (x : List K) (j : ℤ) (h : ext x j ≠ 0) : 0 ≤ j ∧ j < x.length := by
  unfold ext at h
  split_ifs at h with h0
  · refine ⟨h0, ?_⟩
    by_contra hlt
    apply h
    rw [List.getD_eq_getElem?_getD, List.getElem?_eq_none (by omega)]
    rfl
  · exact absurd rfl h

theorem ext_support (x : List K) : (Function.support (ext x)).Finite := by
  refine Set.Finite.subset (Set.finite_Ico (0 : ℤ) x.length) fun j hj => ?_
  exact Set.mem_Ico.mpr (ext_nonzero x j hj)

/-- Autocorrelation of a sequence with finitely many non-zero values. -/
noncomputable def auto (f : ℤ → K) (s : ℤ) : K := ∑ᶠ l, f l * f (l + s)

theorem finite_shift (f : ℤ → K) (hf : (Function.support f).Finite) (s : ℤ) :
    (Function.support fun l => f (l + s)).Finite := by
  have : (Function.support fun l => f (l + s)) = (fun l => l + s) ⁻¹' Function.support f := rfl
  rw [this]
  exact hf.preimage (add_left_injective s).injOn

theorem finite_mul (f g : ℤ → K) (hf : (Function.support f).Finite) :
    (Function.support fun l => f l * g l).Finite := by
  refine hf.subset fun l hl => ?_
  simp only [Function.mem_support] at hl ⊢
  exact left_ne_zero_of_mul hl

/-- The energy of the sum (or difference) of a sequence and its shifted copy. -/
theorem auto_identity (f : ℤ → K) (hf : (Function.support f).Finite) (s : ℤ) (e : K)
    (he : e ^ 2 = 1) :
    ∑ᶠ l, (f l + e * f (l + s)) ^ 2 = 2 * (auto f 0 + e * auto f s) := by
  have h1 : ∑ᶠ l, f (l + s) * f (l + s) = auto f 0 := by
    unfold auto
    have := finsum_comp_equiv (Equiv.addRight s) (f := fun l => f l * f (l + 0))
    simpa using this
  have h2 : ∀ l, (f l + e * f (l + s)) ^ 2 =
      (f l * f (l + 0) + f (l + s) * f (l + s)) + 2 * e * (f l * f (l + s)) := by
    intro l
    rw [add_zero]
    linear_combination (f (l + s)) ^ 2 * he
  simp_rw [h2]
  have fin1 := finite_mul f (fun l => f (l + 0)) hf
  have fin2 := finite_mul (fun l => f (l + s)) (fun l => f (l + s)) (finite_shift f hf s)
  have fin3 := finite_mul f (fun l => f (l + s)) hf
  have fin4 : (Function.support fun l => 2 * e * (f l * f (l + s))).Finite := by
    refine fin3.subset fun l hl => ?_
    simp only [Function.mem_support] at hl ⊢
    exact right_ne_zero_of_mul hl
  have fin5 : (Function.support fun l => f l * f (l + 0) + f (l + s) * f (l + s)).Finite :=
    (fin1.union fin2).subset (Function.support_add _ _)
  have h3 : ∑ᶠ l, 2 * e * (f l * f (l + s)) = 2 * e * ∑ᶠ l, f l * f (l + s) :=
    (mul_finsum' _ _ fin3).symm
  rw [finsum_add_distrib fin5 fin4, finsum_add_distrib fin1 fin2, h1, h3]
  unfold auto
  ring

/-- Away from lag 0 the autocorrelation is strictly below the energy. -/
theorem auto_lt (f : ℤ → K) (hf : (Function.support f).Finite) (h0 : ∃ l, f l ≠ 0) (s : ℤ)
    (hs : s ≠ 0) : |auto f s| < auto f 0 := by
  have key : ∀ e : K, e ^ 2 = 1 → 0 < auto f 0 + e * auto f s := by
    intro e he
    have hid := auto_identity f hf s e he
    have hne : e ≠ 0 := by
      rintro rfl
      simp at he
    obtain ⟨l, hl⟩ : ∃ l, f l + e * f (l + s) ≠ 0 := by
      by_contra hcon
      push Not at hcon
      obtain ⟨l0, hl0⟩ := h0
      have hall : ∀ n : ℕ, f (l0 + n * s) ≠ 0 := by
        intro n
        induction n with
        | zero => simpa using hl0
        | succ n ih =>
          intro hz
          apply ih
          have := hcon (l0 + n * s)
          have harg : l0 + (n : ℤ) * s + s = l0 + ((n + 1 : ℕ) : ℤ) * s := by
            push_cast
            ring
          rw [harg, hz, mul_zero, add_zero] at this
          exact this
      refine Set.infinite_of_injective_forall_mem (f := fun n : ℕ => l0 + (n : ℤ) * s) ?_ hall hf
      intro a b hab
      have : (a : ℤ) * s = b * s := by simpa using hab
      exact_mod_cast mul_right_cancel₀ hs this
    have hpos : 0 < ∑ᶠ l, (f l + e * f (l + s)) ^ 2 := by
      have hfin : (Function.support fun l => (f l + e * f (l + s)) ^ 2).Finite := by
        refine (hf.union (finite_shift f hf s)).subset fun l hl => ?_
        simp only [Function.mem_support, Set.mem_union] at hl ⊢
        by_contra hcon
        push Not at hcon
        apply hl
        rw [hcon.1, hcon.2]
        simp
      rw [finsum_eq_sum _ hfin]
      refine Finset.sum_pos' (fun i _ => sq_nonneg _) ⟨l, ?_, ?_⟩
      · rw [Set.Finite.mem_toFinset, Function.mem_support]
        exact pow_ne_zero 2 hl
      · positivity
    rw [hid] at hpos
    linarith
  rw [abs_lt]
  have k1 := key 1 (by ring)
  have k2 := key (-1) (by ring)
  constructor <;> linarith

/-- The correlation of a sequence with its delayed copy is the shifted autocorrelation. -/
theorem correlateAt_auto (x y : List K) (d : ℤ) (h : Delayed y x d) (hy : y ≠ []) (k : ℕ) :
    correlateAt x y k = auto (ext x) ((y.length : ℤ) - 1 - k - d) := by
  unfold correlateAt auto
  have hylen : 0 < y.length := List.length_pos_iff.mpr hy
  rw [finsum_eq_sum_of_support_subset (s := (Finset.range x.length).image fun l : ℕ => (l : ℤ))]
  · rw [Finset.sum_image (fun a _ b _ hab => by exact_mod_cast hab)]
    refine Finset.sum_congr rfl fun l _ => ?_
    have h1 : ext x (l : ℤ) = x.getD l 0 := by simp [ext]
    have h2 := h ((l : ℤ) + ((y.length : ℤ) - 1 - k))
    have harg : (l : ℤ) + ((y.length : ℤ) - 1 - k) - d = l + ((y.length : ℤ) - 1 - k - d) := by ring
    rw [harg] at h2
    rw [h1, ← h2]
    unfold ext
    by_cases hk : k ≤ l + (y.length - 1)
    · rw [if_pos hk, if_pos (by omega)]
      congr 2
      omega
    · rw [if_neg hk, if_neg (by omega), mul_zero]
  · intro l hl
    simp only [Function.mem_support] at hl
    have := ext_nonzero x l (left_ne_zero_of_mul hl)
    simp only [Finset.coe_image, Set.mem_image, Finset.mem_coe, Finset.mem_range]
    exact ⟨l.toNat, by omega, by omega⟩

/-- The latency between a delayed (or advanced) copy and a sequence that is not zero is exactly
the delay. -/
theorem C48_pair (x y : List K) (d : ℤ) (h : Delayed y x d) (hx : ∃ j, ext x j ≠ 0) :
    latencyPair y x = .ok d := by
  obtain ⟨j, hj⟩ := hx
  have hjr := ext_nonzero x j hj
  have hyj := h (j + d)
  rw [add_sub_cancel_right] at hyj
  have hjy := ext_nonzero y (j + d) (by rw [hyj]; exact hj)
  have hxne : x ≠ [] := by
    rintro rfl
    simp at hjr
    omega
  have hyne : y ≠ [] := by
    rintro rfl
    simp at hjy
    omega
  set z := correlate x y with hz
  have hzlen : z.length = x.length + y.length - 1 := by
    rw [hz]
    unfold correlate
    rw [if_neg (by simp [hxne, hyne])]
    simp
  have hzget : ∀ k < z.length, z.getD k 0 = auto (ext x) ((y.length : ℤ) - 1 - k - d) := by
    intro k hk
    rw [← correlateAt_auto x y d h hyne k, hz]
    unfold correlate
    rw [if_neg (by simp [hxne, hyne]), getD_map_range, if_pos (by omega)]
  obtain ⟨i, hi, hmin⟩ := argmin_spec (z.map fun a => -|a|) (by
    intro hcon
    have : z.length = 0 := by
      have := congrArg List.length hcon
      simpa using this
    omega)
  have hil : i < z.length := by simpa using hmin.1
  have hneg : ∀ k < z.length, (z.map fun a => -|a|).getD k 0 = -|z.getD k 0| := by
    intro k hk
    rw [List.getD_eq_getElem _ _ (by simpa using hk), List.getD_eq_getElem _ _ hk]
    simp
  -- the peak
  obtain ⟨p, hp⟩ : ∃ p : ℕ, (p : ℤ) = (y.length : ℤ) - 1 - d := ⟨((y.length : ℤ) - 1 - d).toNat, by omega⟩
  have hplt : p < z.length := by omega
  have hval : z.getD p 0 = auto (ext x) 0 := by
    rw [hzget p hplt]
    congr 1
    omega
  have hpos : 0 ≤ auto (ext x) 0 := by
    unfold auto
    refine finsum_nonneg fun l => ?_
    rw [add_zero]
    exact mul_self_nonneg _
  have hip : i = p := by
    by_contra hne
    have h1 := hmin.2.1 p (by simpa using hplt)
    rw [hneg i hil, hneg p hplt, hval, hzget i hil, abs_of_nonneg hpos] at h1
    have h2 := auto_lt (ext x) (ext_support x) ⟨j, hj⟩ ((y.length : ℤ) - 1 - i - d) (by omega)
    linarith
  unfold latencyPair argmaxAbs
  rw [← hz, hi]
  simp only
  rw [hip]
  congr 1
  omega

theorem mapM_ok (n : ℕ) (f : ℕ → Except Err ℤ) (g : ℕ → ℤ) (h : ∀ c < n, f c = .ok (g c)) :
    (List.range n).mapM f = .ok ((List.range n).map g) := by
  have : ∀ l : List ℕ, (∀ c ∈ l, f c = .ok (g c)) → l.mapM f = .ok (l.map g) := by
    intro l
    induction l with
    | nil => intro _; rfl
    | cons a l ih =>
      intro hl
      rw [List.mapM_cons, hl a (by simp)]
      simp only [bind, Except.bind]
      rw [ih fun c hc => hl c (by simp [hc])]
      rfl
  exact this _ fun c hc => h c (List.mem_range.mp hc)

/-- Two signals: if every channel of the first is the delayed copy of the same channel of the
second, the delays are returned in the order of the channels. -/
theorem C48_two_signals (in1 in2 : List (List K)) (d : ℕ → ℤ) (hlen : in1.length = in2.length)
    (h : ∀ c < in1.length, Delayed (in1.getD c []) (in2.getD c []) (d c))
    (hx : ∀ c < in1.length, ∃ j, ext (in2.getD c []) j ≠ 0) :
    latency2 true in1 in2 = .ok ((List.range in1.length).map d) := by
  unfold latency2
  rw [if_neg (by simp), if_neg (by omega)]
  exact mapM_ok _ _ _ fun c hc => C48_pair _ _ _ (h c hc) (hx c hc)

/-- One signal with two channels: the delay of the second channel is returned. -/
theorem C48_one_signal_partial (in1 : List (List K)) (d : ℤ) (hlen : in1.length = 2)
    (h : Delayed (in1.getD 1 []) (in1.getD 0 []) d) (hx : ∃ j, ext (in1.getD 0 []) j ≠ 0) :
    latency1 in1 = .ok [d] := by
  unfold latency1
  rw [if_neg (by omega), hlen]
  exact mapM_ok 1 _ (fun _ => d) fun c hc => by
    obtain rfl : c = 0 := by omega
    exact C48_pair _ _ _ h hx

/-- One signal with more channels: the delays are returned in reversed order. -/
theorem C48_one_signal_reversed (in1 : List (List K)) (d : ℕ → ℤ) (hlen : 2 ≤ in1.length)
    (h : ∀ c, 1 ≤ c → c < in1.length → Delayed (in1.getD c []) (in1.getD 0 []) (d c))
    (hx : ∃ j, ext (in1.getD 0 []) j ≠ 0) :
    latency1 in1 = .ok ((List.range (in1.length - 1)).map fun c => d (in1.length - 1 - c)) := by
  unfold latency1
  rw [if_neg (by omega)]
  exact mapM_ok _ _ _ fun c hc => C48_pair _ _ _ (h _ (by omega) (by omega)) hx

/-- Concrete case of the reversal: channels delayed by 1 and 2 samples give `[2, 1]`. -/
theorem C48_reversed_example :
    latency1 ([[5, 7, 0, 0], [0, 5, 7, 0], [0, 0, 5, 7]] : List (List ℚ)) = .ok [2, 1] := by
  decide +kernel

/-- If samples are lost at the end (delayed copy trimmed to the length of the signal), the result
can differ from the delay: `[1, 10]` delayed by one sample is `[0, 1]`, latency 0. -/
theorem C48_trimmed_copy : latencyPair ([0, 1] : List ℚ) [1, 10] = .ok 0 := by decide +kernel

/-- For silence the result does not depend on the delay: it is the length minus one. -/
theorem C48_silence : latencyPair ([0, 0, 0] : List ℚ) [0, 0, 0] = .ok 2 := by decide +kernel

/-- Concrete case for the hypotheses. -/
example : Delayed ([0, 5, 7] : List ℚ) [5, 7, 0] 1 ∧ ext ([5, 7, 0] : List ℚ) 0 ≠ 0 := by
  refine ⟨fun j => ?_, by decide +kernel⟩
  rcases lt_or_ge j 0 with hj | hj
  · simp only [ext, if_neg (not_le.mpr hj)]
    rw [if_neg (by omega)]
  · rcases lt_or_ge j 3 with hj3 | hj3
    · interval_cases j <;> decide +kernel
    · have h1 : ext ([0, 5, 7] : List ℚ) j = 0 := by
        by_contra hcon
        have := (ext_nonzero _ j hcon).2
        simp at this
        omega
      have h2 : ext ([5, 7, 0] : List ℚ) (j - 1) = 0 := by
        rcases eq_or_lt_of_le hj3 with rfl | hlt
        · decide +kernel
        · by_contra hcon
          have := (ext_nonzero _ (j - 1) hcon).2
          simp at this
          omega
      rw [h1, h2]

end Verif.Latency
