import Verif.Model.ImageSource
import Verif.Props.C63
import Mathlib.Algebra.BigOperators.Field
import Mathlib.Algebra.BigOperators.Pi
import Mathlib.Algebra.Order.BigOperators.Ring.Finset
import Mathlib.Data.Fintype.Pi
import Mathlib.Data.Int.Interval
import Mathlib.Data.List.GetD
import Mathlib.Data.List.ProdSigma
import Mathlib.Tactic.FieldSimp
import Mathlib.Tactic.Ring
import Mathlib.Tactic.NormNum
import Mathlib.Tactic.Linarith
import Mathlib.Tactic.Positivity
import Mathlib.Tactic.FinCases

/-!
# C64: image source method

"The synthetic room impulse response is, sample by sample, the sum of the contributions of all image
sources up to the order, each damped by the walls it was mirrored at and by its distance.  It is the
same with source and receiver exchanged, and nothing arrives before the direct sound.  It can be
computed for every room."
-/

namespace Verif.Room

open Finset

/-! ## Specification -/

/-- All image orders up to `L`. -/
noncomputable def allOrders (L : ℕ) : Finset (Fin 3 → ℤ) := Fintype.piFinset fun _ => Icc (-(L : ℤ)) L

/-- All mirror patterns. -/
def patterns : Finset (Fin 3 → ℤ) := Fintype.piFinset fun _ => {0, 1}

/-- The contribution of all images to sample `n`. -/
noncomputable def imageSum (S : Setup) (L n : ℕ) : ℝ :=
  ∑ l ∈ allOrders L, ∑ u ∈ patterns, if S.index l u = n then S.amplitude l u else 0

/-- No two images of the same order arrive in the same sample. -/
def NoCoincidence (S : Setup) (L : ℕ) : Prop :=
  ∀ l ∈ allOrders L, ∀ u ∈ patterns, ∀ v ∈ patterns, S.index l u = S.index l v → u = v

/-- Source and receiver are different points of the room, the walls do not amplify. -/
structure Setup.Proper (S : Setup) : Prop where
  dims : ∀ i, 0 < S.dims i
  s : ∀ i, 0 < S.s i ∧ S.s i < S.dims i
  r : ∀ i, 0 < S.r i ∧ S.r i < S.dims i
  ne : S.s ≠ S.r
  b1 : ∀ i, 0 ≤ S.b1 i
  b2 : ∀ i, 0 ≤ S.b2 i
  sr : 0 < S.sr

/-! ## Lemmas: lists and sums -/

theorem uVectors_nodup : uVectors.Nodup := by decide

theorem uVectors_toFinset : uVectors.toFinset = patterns := by decide

theorem mem_uVectors (u : Fin 3 → ℤ) : u ∈ uVectors ↔ u ∈ patterns := by
  rw [← uVectors_toFinset, List.mem_toFinset]

theorem mem_orders (L : ℕ) (l : Fin 3 → ℤ) : l ∈ orders L ↔ l ∈ allOrders L := by
  unfold orders allOrders
  simp only [List.mem_flatMap, List.mem_map, List.mem_range, Fintype.mem_piFinset, mem_Icc]
  constructor
  · rintro ⟨i, hi, j, hj, k, hk, rfl⟩ a
    fin_cases a <;> simp <;> omega
  · intro h
    have h0 := h 0
    have h1 := h 1
    have h2 := h 2
    refine ⟨(l 0 + L).toNat, by omega, (l 1 + L).toNat, by omega, (l 2 + L).toNat, by omega, ?_⟩
    funext a
    fin_cases a <;> simp <;> omega

theorem orders_nodup (L : ℕ) : (orders L).Nodup := by
  unfold orders
  refine List.nodup_flatMap.mpr ⟨fun x _ => List.nodup_flatMap.mpr ⟨fun y _ => ?_, ?_⟩, ?_⟩
  · refine List.Nodup.map (fun a b h => ?_) List.nodup_range
    have := congrFun h 2
    simpa using this
  · refine List.nodup_range.imp fun {a b} hab => ?_
    rw [Function.onFun, List.disjoint_left]
    intro p hp hq
    obtain ⟨_, -, rfl⟩ := List.mem_map.mp hp
    obtain ⟨_, -, h⟩ := List.mem_map.mp hq
    have := congrFun h 1
    simp only [Matrix.cons_val_one, Matrix.cons_val_zero, sub_left_inj, Nat.cast_inj] at this
    exact hab this.symm
  · refine List.nodup_range.imp fun {a b} hab => ?_
    rw [Function.onFun, List.disjoint_left]
    intro p hp hq
    obtain ⟨_, -, hp'⟩ := List.mem_flatMap.mp hp
    obtain ⟨_, -, rfl⟩ := List.mem_map.mp hp'
    obtain ⟨_, -, hq'⟩ := List.mem_flatMap.mp hq
    obtain ⟨_, -, h⟩ := List.mem_map.mp hq'
    have := congrFun h 0
    simp only [Matrix.cons_val_zero, sub_left_inj, Nat.cast_inj] at this
    exact hab this.symm

/-- The value that the assignment adds to sample `n`: the last one wins. -/
noncomputable def lastVal (iv : List (ℕ × ℝ)) (n : ℕ) : ℝ :=
  iv.foldl (fun a p => if p.1 = n then p.2 else a) 0

theorem fancyAdd_spec (x y : List ℝ) (iv : List (ℕ × ℝ)) (h : fancyAdd x iv = .ok y) :
    y.length = x.length ∧ (∀ p ∈ iv, p.1 < x.length) ∧
      ∀ n < x.length, y.getD n 0 = x.getD n 0 + lastVal iv n := by
  unfold fancyAdd at h
  by_cases hr : ∀ p ∈ iv, p.1 < x.length
  swap
  · rw [if_neg hr] at h; cases h
  rw [if_pos hr] at h
  cases h
  have key : ∀ iv : List (ℕ × ℝ), (iv.foldl (fun y p => y.set p.1 (x.getD p.1 0 + p.2)) x).length =
      x.length ∧ ∀ n < x.length, (iv.foldl (fun y p => y.set p.1 (x.getD p.1 0 + p.2)) x).getD n 0 =
        x.getD n 0 + lastVal iv n := by
    intro iv
    induction iv using List.reverseRecOn with
    | nil => exact ⟨rfl, fun n _ => by simp [lastVal]⟩
    | append_singleton iv p ih =>
      rw [List.foldl_append]
      simp only [List.foldl_cons, List.foldl_nil, List.length_set]
      refine ⟨ih.1, fun n hn => ?_⟩
      unfold lastVal
      rw [List.foldl_append]
      simp only [List.foldl_cons, List.foldl_nil]
      rw [List.getD_eq_getElem _ _ (by rw [List.length_set, ih.1]; exact hn), List.getElem_set]
      split_ifs with hp
      · rw [hp]
      · rw [← List.getD_eq_getElem _ 0]
        exact ih.2 n hn
  exact ⟨(key iv).1, hr, (key iv).2⟩

theorem lastVal_nomatch (iv : List (ℕ × ℝ)) (n : ℕ) (h : ∀ p ∈ iv, p.1 ≠ n) : lastVal iv n = 0 := by
  unfold lastVal
  have : ∀ (iv : List (ℕ × ℝ)) (a : ℝ), (∀ p ∈ iv, p.1 ≠ n) →
      iv.foldl (fun a p => if p.1 = n then p.2 else a) a = a := by
    intro iv
    induction iv with
    | nil => intros; rfl
    | cons p iv ih =>
      intro a h
      rw [List.foldl_cons, if_neg (h p (by simp))]
      exact ih a fun q hq => h q (List.mem_cons_of_mem _ hq)
  exact this iv 0 h

theorem lastVal_append (iv : List (ℕ × ℝ)) (p : ℕ × ℝ) (n : ℕ) :
    lastVal (iv ++ [p]) n = if p.1 = n then p.2 else lastVal iv n := by
  unfold lastVal
  rw [List.foldl_append]
  rfl

/-- Without coincidences the assignment is the sum. -/
theorem lastVal_distinct (iv : List (ℕ × ℝ)) (h : (iv.map (·.1)).Nodup) (n : ℕ) :
    lastVal iv n = (iv.map fun p => if p.1 = n then p.2 else 0).sum := by
  induction iv using List.reverseRecOn with
  | nil => rfl
  | append_singleton iv p ih =>
    rw [List.map_append, List.map_singleton, List.nodup_append] at h
    rw [lastVal_append, List.map_append, List.sum_append, List.map_singleton, List.sum_singleton]
    split_ifs with hp
    · rw [← ih h.1, lastVal_nomatch, zero_add]
      intro q hq hqn
      exact h.2.2 q.1 (List.mem_map_of_mem hq) p.1 (by simp) (by rw [hqn, hp])
    · rw [ih h.1, add_zero]

/-- With non-negative values it is never more than the sum. -/
theorem lastVal_le (iv : List (ℕ × ℝ)) (h : ∀ p ∈ iv, 0 ≤ p.2) (n : ℕ) :
    0 ≤ lastVal iv n ∧ lastVal iv n ≤ (iv.map fun p => if p.1 = n then p.2 else 0).sum := by
  induction iv using List.reverseRecOn with
  | nil => exact ⟨le_rfl, le_rfl⟩
  | append_singleton iv p ih =>
    have hi := ih fun q hq => h q (by simp [hq])
    have hp := h p (by simp)
    rw [lastVal_append, List.map_append, List.sum_append, List.map_singleton, List.sum_singleton]
    split_ifs with hpn
    · exact ⟨hp, by linarith [hi.1, hi.2]⟩
    · exact ⟨hi.1, by linarith [hi.2]⟩

theorem sum_uVectors (f : (Fin 3 → ℤ) → ℝ) : (uVectors.map f).sum = ∑ u ∈ patterns, f u := by
  rw [← uVectors_toFinset, List.sum_toFinset _ uVectors_nodup]

theorem sum_orders (L : ℕ) (f : (Fin 3 → ℤ) → ℝ) : ((orders L).map f).sum = ∑ l ∈ allOrders L, f l := by
  have : (orders L).toFinset = allOrders L := by
    ext l
    rw [List.mem_toFinset, mem_orders]
  rw [← this, List.sum_toFinset _ (orders_nodup L)]

/-- Values of one order. -/
noncomputable def Setup.values (S : Setup) (l : Fin 3 → ℤ) : List (ℕ × ℝ) :=
  uVectors.map fun u => (S.index l u, S.amplitude l u)

theorem foldlM_spec (S : Setup) (ls : List (Fin 3 → ℤ)) (x y : List ℝ)
    (h : ls.foldlM (fun x l => fancyAdd x (S.values l)) x = .ok y) :
    y.length = x.length ∧ (∀ l ∈ ls, ∀ p ∈ S.values l, p.1 < x.length) ∧
      ∀ n < x.length, y.getD n 0 = x.getD n 0 + (ls.map fun l => lastVal (S.values l) n).sum := by
  induction ls generalizing x with
  | nil =>
    rw [List.foldlM_nil] at h
    cases h
    exact ⟨rfl, by simp, by simp⟩
  | cons l ls ih =>
    rw [List.foldlM_cons] at h
    cases h1 : fancyAdd x (S.values l) with
    | error e => rw [h1] at h; cases h
    | ok z =>
      rw [h1] at h
      obtain ⟨a1, a2, a3⟩ := fancyAdd_spec _ _ _ h1
      obtain ⟨b1, b2, b3⟩ := ih z h
      refine ⟨b1.trans a1, ?_, fun n hn => ?_⟩
      · intro l' hl' p hp
        rcases List.mem_cons.mp hl' with rfl | hl'
        · exact a2 p hp
        · rw [← a1]
          exact b2 l' hl' p hp
      · rw [b3 n (a1 ▸ hn), a3 n hn, List.map_cons, List.sum_cons]
        ring

theorem foldlM_ok (S : Setup) (ls : List (Fin 3 → ℤ)) (x : List ℝ)
    (h : ∀ l ∈ ls, ∀ p ∈ S.values l, p.1 < x.length) :
    ∃ y, ls.foldlM (fun x l => fancyAdd x (S.values l)) x = .ok y := by
  induction ls generalizing x with
  | nil => exact ⟨x, rfl⟩
  | cons l ls ih =>
    rw [List.foldlM_cons]
    have h1 : fancyAdd x (S.values l) = .ok ((S.values l).foldl
        (fun y p => y.set p.1 (x.getD p.1 0 + p.2)) x) := by
      unfold fancyAdd
      rw [if_pos (h l (by simp))]
    have hlen := (fancyAdd_spec _ _ _ h1).1
    rw [h1]
    refine ih _ fun l' hl' p hp => ?_
    rw [hlen]
    exact h l' (List.mem_cons_of_mem _ hl') p hp

theorem generate_eq (S : Setup) (L len : ℕ) : generate S L len =
    (orders L).foldlM (fun x l => fancyAdd x (S.values l)) (List.replicate len 0) := rfl

theorem generate_ok (S : Setup) (L len : ℕ) (y : List ℝ) (h : generate S L len = .ok y) :
    y.length = len ∧ (∀ l ∈ allOrders L, ∀ u ∈ patterns, S.index l u < len) ∧
      ∀ n < len, y.getD n 0 = ∑ l ∈ allOrders L, lastVal (S.values l) n := by
  rw [generate_eq] at h
  obtain ⟨h1, h2, h3⟩ := foldlM_spec S _ _ _ h
  rw [List.length_replicate] at h1 h2 h3
  refine ⟨h1, fun l hl u hu => ?_, fun n hn => ?_⟩
  · exact h2 l ((mem_orders L l).mpr hl) (S.index l u, S.amplitude l u)
      (List.mem_map_of_mem ((mem_uVectors u).mpr hu))
  · rw [h3 n hn, sum_orders]
    simp [hn]

theorem values_sum (S : Setup) (l : Fin 3 → ℤ) (n : ℕ) :
    ((S.values l).map fun p => if p.1 = n then p.2 else 0).sum =
      ∑ u ∈ patterns, if S.index l u = n then S.amplitude l u else 0 := by
  rw [← sum_uVectors]
  unfold Setup.values
  rw [List.map_map]
  rfl

theorem amplitude_nonneg (S : Setup) (h : S.Proper) (l u : Fin 3 → ℤ) : 0 ≤ S.amplitude l u := by
  unfold Setup.amplitude Setup.damping Setup.distance
  have h1 : 0 ≤ ∏ i, S.b1 i ^ (l i - u i).natAbs := prod_nonneg fun i _ => pow_nonneg (h.b1 i) _
  have h2 : 0 ≤ ∏ i, S.b2 i ^ (l i).natAbs := prod_nonneg fun i _ => pow_nonneg (h.b2 i) _
  positivity

/-! ## The sum of all images -/

/-- The response is computed exactly if every image arrives within its length; otherwise IndexError
is raised. -/
theorem C64_computed (S : Setup) (L len : ℕ) :
    (∃ y, generate S L len = .ok y) ↔ ∀ l ∈ allOrders L, ∀ u ∈ patterns, S.index l u < len := by
  constructor
  · rintro ⟨y, hy⟩
    exact (generate_ok S L len y hy).2.1
  · intro h
    rw [generate_eq]
    refine foldlM_ok S _ _ fun l hl p hp => ?_
    obtain ⟨u, hu, rfl⟩ := List.mem_map.mp hp
    rw [List.length_replicate]
    exact h l ((mem_orders L l).mp hl) u ((mem_uVectors u).mp hu)

/-- Without coincidences of images of the same order the response is the sum of all images. -/
theorem C64_sum_partial (S : Setup) (L len : ℕ) (hc : NoCoincidence S L) (y : List ℝ)
    (h : generate S L len = .ok y) : y.length = len ∧ ∀ n < len, y.getD n 0 = imageSum S L n := by
  obtain ⟨h1, -, h3⟩ := generate_ok S L len y h
  refine ⟨h1, fun n hn => ?_⟩
  rw [h3 n hn, imageSum]
  refine sum_congr rfl fun l hl => ?_
  rw [lastVal_distinct, values_sum]
  unfold Setup.values
  rw [List.map_map]
  refine List.Nodup.map_on (fun u hu v hv huv => ?_) uVectors_nodup
  exact hc l hl u ((mem_uVectors u).mp hu) v ((mem_uVectors v).mp hv) huv

/-- It is never more than the sum. -/
theorem C64_never_more (S : Setup) (hS : S.Proper) (L len : ℕ) (y : List ℝ)
    (h : generate S L len = .ok y) (n : ℕ) (hn : n < len) :
    0 ≤ y.getD n 0 ∧ y.getD n 0 ≤ imageSum S L n := by
  obtain ⟨-, -, h3⟩ := generate_ok S L len y h
  have hv : ∀ l, ∀ p ∈ S.values l, 0 ≤ p.2 := by
    intro l p hp
    obtain ⟨u, -, rfl⟩ := List.mem_map.mp hp
    exact amplitude_nonneg S hS l u
  rw [h3 n hn, imageSum]
  refine ⟨sum_nonneg fun l _ => (lastVal_le _ (hv l) n).1, sum_le_sum fun l _ => ?_⟩
  rw [← values_sum]
  exact (lastVal_le _ (hv l) n).2

/-- A setup without coincidences: the squared distances of the eight images are 10, 14, ..., 38. -/
example : ∃ S : Setup, S.Proper ∧ NoCoincidence S 0 ∧ ∃ y, generate S 0 10000 = .ok y := by
  let S : Setup := ⟨![5, 5, 5], ![1, 1, 1], ![1, 2, 4], fun _ => 0.9, fun _ => 0.9, 48000⟩
  have hl0 : ∀ l ∈ allOrders 0, l = 0 := by
    intro l hl
    funext i
    have := Fintype.mem_piFinset.mp hl i
    simpa using this
  have hd : ∀ u, S.distance 0 u = √(10 + 4 * ((u 0 ^ 2 + 2 * u 1 ^ 2 + 4 * u 2 ^ 2 : ℤ) : ℝ)) ∨
      u ∉ patterns := by
    intro u
    by_cases hu : u ∈ patterns
    · left
      have h : ∀ i, u i = 0 ∨ u i = 1 := fun i => by
        have := Fintype.mem_piFinset.mp hu i
        simpa using this
      have e1 : (![1, 1, 1] : Fin 3 → ℝ) 2 = 1 := rfl
      have e2 : (![1, 2, 4] : Fin 3 → ℝ) 2 = 4 := rfl
      unfold Setup.distance
      congr 1
      rcases h 0 with h0 | h0 <;> rcases h 1 with h1 | h1 <;> rcases h 2 with h2 | h2 <;>
        norm_num [S, Fin.sum_univ_three, h0, h1, h2, e1, e2]
    · exact Or.inr hu
  have hsep : ∀ a b : ℤ, 0 ≤ a → a < b → b ≤ 7 →
      ⌊√(10 + 4 * (a : ℝ)) / 343 * 48000 + 0.5⌋₊ < ⌊√(10 + 4 * (b : ℝ)) / 343 * 48000 + 0.5⌋₊ := by
    intro a b ha hab hb
    have ha' : (0 : ℝ) ≤ a := by exact_mod_cast ha
    have hab' : (a : ℝ) + 1 ≤ b := by exact_mod_cast hab
    have hb' : (b : ℝ) ≤ 7 := by exact_mod_cast hb
    have h1 : √(10 + 4 * (a : ℝ)) ≤ 7 := Real.sqrt_le_iff.mpr ⟨by norm_num, by linarith⟩
    have h2 : √(10 + 4 * (b : ℝ)) ≤ 7 := Real.sqrt_le_iff.mpr ⟨by norm_num, by linarith⟩
    have h3 := Real.sq_sqrt (show 0 ≤ 10 + 4 * (a : ℝ) by linarith)
    have h4 := Real.sq_sqrt (show 0 ≤ 10 + 4 * (b : ℝ) by linarith)
    have h5 := Real.sqrt_nonneg (10 + 4 * (a : ℝ))
    have h6 : √(10 + 4 * (a : ℝ)) ≤ √(10 + 4 * (b : ℝ)) := Real.sqrt_le_sqrt (by linarith)
    have h7 : 2 / 7 ≤ √(10 + 4 * (b : ℝ)) - √(10 + 4 * (a : ℝ)) := by nlinarith
    rw [Nat.lt_iff_add_one_le, Nat.le_floor_iff (by positivity)]
    have := Nat.floor_le (show 0 ≤ √(10 + 4 * (a : ℝ)) / 343 * 48000 + 0.5 by positivity)
    push_cast
    linarith
  have hidx : ∀ u ∈ patterns, S.index 0 u =
      ⌊√(10 + 4 * ((u 0 ^ 2 + 2 * u 1 ^ 2 + 4 * u 2 ^ 2 : ℤ) : ℝ)) / 343 * 48000 + 0.5⌋₊ := by
    intro u hu
    unfold Setup.index
    rcases hd u with h | h
    · rw [h]
    · exact absurd hu h
  have hk : ∀ u ∈ patterns, 0 ≤ u 0 ^ 2 + 2 * u 1 ^ 2 + 4 * u 2 ^ 2 ∧
      u 0 ^ 2 + 2 * u 1 ^ 2 + 4 * u 2 ^ 2 ≤ 7 := by decide
  have hinj : ∀ u ∈ patterns, ∀ v ∈ patterns, u 0 ^ 2 + 2 * u 1 ^ 2 + 4 * u 2 ^ 2 =
      v 0 ^ 2 + 2 * v 1 ^ 2 + 4 * v 2 ^ 2 → u = v := by decide
  refine ⟨S, ⟨?_, ?_, ?_, ?_, fun _ => by norm_num [S], fun _ => by norm_num [S], by norm_num [S]⟩,
    ?_, ?_⟩
  · intro i; fin_cases i <;> norm_num [S]
  · intro i; fin_cases i <;> norm_num [S]
  · intro i; fin_cases i <;> norm_num [S]
  · intro h; have := congrFun h 1; norm_num [S] at this
  · intro l hl u hu v hv huv
    rw [hl0 l hl, hidx u hu, hidx v hv] at huv
    refine hinj u hu v hv ?_
    rcases lt_trichotomy (u 0 ^ 2 + 2 * u 1 ^ 2 + 4 * u 2 ^ 2)
      (v 0 ^ 2 + 2 * v 1 ^ 2 + 4 * v 2 ^ 2) with h | h | h
    · exact absurd huv (hsep _ _ (hk u hu).1 h (hk v hv).2).ne
    · exact h
    · exact absurd huv (hsep _ _ (hk v hv).1 h (hk u hu).2).ne'
  · refine (C64_computed S 0 10000).mpr fun l hl u hu => ?_
    rw [hl0 l hl, hidx u hu, Nat.floor_lt (by positivity)]
    have hb : ((u 0 ^ 2 + 2 * u 1 ^ 2 + 4 * u 2 ^ 2 : ℤ) : ℝ) ≤ 7 := by exact_mod_cast (hk u hu).2
    have := Real.sqrt_le_iff.mpr (show 0 ≤ (7 : ℝ) ∧
      10 + 4 * ((u 0 ^ 2 + 2 * u 1 ^ 2 + 4 * u 2 ^ 2 : ℤ) : ℝ) ≤ 7 ^ 2 from ⟨by norm_num, by linarith⟩)
    push_cast at this ⊢
    linarith

/-- A value followed by another one for the same sample is lost. -/
theorem lastVal_lost (A B C : List (ℕ × ℝ)) (p q : ℕ × ℝ)
    (h : ∀ v ∈ A ++ p :: (B ++ q :: C), 0 ≤ v.2) (hpq : p.1 = q.1) :
    lastVal (A ++ p :: (B ++ q :: C)) p.1 + p.2 ≤
      ((A ++ p :: (B ++ q :: C)).map fun v => if v.1 = p.1 then v.2 else 0).sum := by
  have e : lastVal (A ++ p :: (B ++ q :: C)) p.1 = lastVal (q :: C) p.1 := by
    unfold lastVal
    simp only [List.foldl_append, List.foldl_cons]
    rw [if_pos hpq.symm, if_pos hpq.symm]
  have hA : 0 ≤ (A.map fun v => if v.1 = p.1 then v.2 else 0).sum :=
    le_trans (lastVal_le A (fun v hv => h v (by simp [hv])) p.1).1
      (lastVal_le A (fun v hv => h v (by simp [hv])) p.1).2
  have hB : 0 ≤ (B.map fun v => if v.1 = p.1 then v.2 else 0).sum :=
    le_trans (lastVal_le B (fun v hv => h v (by simp [hv])) p.1).1
      (lastVal_le B (fun v hv => h v (by simp [hv])) p.1).2
  have hC := (lastVal_le (q :: C) (fun v hv => h v (by
    simp only [List.mem_append, List.mem_cons] at hv ⊢
    tauto)) p.1).2
  rw [e]
  simp only [List.map_append, List.map_cons, List.sum_append, List.sum_cons, if_true] at hC ⊢
  linarith

theorem lost_of_split (S : Setup) (hS : S.Proper) (L len : ℕ) (y : List ℝ)
    (h : generate S L len = .ok y) (A B C : List (Fin 3 → ℤ)) (u v : Fin 3 → ℤ)
    (hsplit : uVectors = A ++ u :: (B ++ v :: C)) (l : Fin 3 → ℤ) (hl : l ∈ allOrders L)
    (hi : S.index l u = S.index l v) :
    y.getD (S.index l u) 0 + S.amplitude l u ≤ imageSum S L (S.index l u) := by
  obtain ⟨-, h2, h3⟩ := generate_ok S L len y h
  have hu : u ∈ patterns := (mem_uVectors u).mp (by rw [hsplit]; simp)
  have hv : ∀ l, ∀ p ∈ S.values l, 0 ≤ p.2 := by
    intro l p hp
    obtain ⟨u, -, rfl⟩ := List.mem_map.mp hp
    exact amplitude_nonneg S hS l u
  rw [h3 _ (h2 l hl u hu), imageSum, ← add_sum_erase _ _ hl, ← add_sum_erase _ _ hl]
  have hval : S.values l = A.map (fun u => (S.index l u, S.amplitude l u)) ++
      (S.index l u, S.amplitude l u) :: (B.map (fun u => (S.index l u, S.amplitude l u)) ++
        (S.index l v, S.amplitude l v) :: C.map (fun u => (S.index l u, S.amplitude l u))) := by
    unfold Setup.values
    rw [hsplit]
    simp
  have h1 := lastVal_lost _ _ _ (S.index l u, S.amplitude l u) (S.index l v, S.amplitude l v)
    (hval ▸ hv l) hi
  rw [← hval, values_sum] at h1
  have h4 : ∑ k ∈ (allOrders L).erase l, lastVal (S.values k) (S.index l u) ≤
      ∑ k ∈ (allOrders L).erase l, ∑ w ∈ patterns,
        if S.index k w = S.index l u then S.amplitude k w else 0 := by
    refine sum_le_sum fun k _ => ?_
    rw [← values_sum]
    exact (lastVal_le _ (hv k) _).2
  dsimp only at h1
  linarith

theorem zero_mem_allOrders (L : ℕ) : (0 : Fin 3 → ℤ) ∈ allOrders L := by
  unfold allOrders
  simp

/-- If the reflections at the floor and at the wall `y = 0` arrive at the same time (for instance
source and receiver at the same distances from both), the former is missing in the response. -/
theorem C64_reflection_lost (S : Setup) (hS : S.Proper) (hs : S.s 1 = S.s 2) (hr : S.r 1 = S.r 2)
    (hb : 0 < S.b1 2) (L len : ℕ) (y : List ℝ) (h : generate S L len = .ok y) :
    ∃ n < len, y.getD n 0 + S.amplitude 0 ![0, 0, 1] ≤ imageSum S L n ∧
      0 < S.amplitude 0 ![0, 0, 1] := by
  obtain ⟨-, h2, -⟩ := generate_ok S L len y h
  have hd : S.distance 0 ![0, 0, 1] = S.distance 0 ![0, 1, 0] := by
    unfold Setup.distance
    congr 1
    simp [Fin.sum_univ_three, hs, hr]
    ring
  refine ⟨_, h2 0 (zero_mem_allOrders L) ![0, 0, 1] (by decide), lost_of_split S hS L len y h
    [![0, 0, 0]] [] [![1, 0, 0], ![0, 1, 1], ![1, 0, 1], ![1, 1, 0], ![1, 1, 1]]
    ![0, 0, 1] ![0, 1, 0] rfl 0 (zero_mem_allOrders L) (by unfold Setup.index; rw [hd]), ?_⟩
  have hdp : 0 < S.distance 0 ![0, 0, 1] := by
    unfold Setup.distance
    apply Real.sqrt_pos.mpr
    have h1 := (hS.s 2).1
    have h2 := (hS.r 2).1
    have : 0 < (-S.s 2 - S.r 2) ^ 2 := by
      have : -S.s 2 - S.r 2 < 0 := by linarith
      exact sq_pos_of_neg this
    simp only [Fin.sum_univ_three]
    simp
    have e : (-S.s 2 - S.r 2) ^ 2 = ((1 - 2) * S.s 2 - S.r 2) ^ 2 := by ring
    rw [e] at this
    positivity
  unfold Setup.amplitude Setup.damping
  simp only [Fin.prod_univ_three]
  simp
  positivity

/-- If the floor reflection arrives in the same sample as the direct sound, the direct sound is
missing in the response. -/
theorem C64_direct_lost (S : Setup) (hS : S.Proper) (L len : ℕ) (y : List ℝ)
    (h : generate S L len = .ok y) (hi : S.index 0 ![0, 0, 0] = S.index 0 ![0, 0, 1]) :
    y.getD (S.index 0 ![0, 0, 0]) 0 + S.amplitude 0 ![0, 0, 0] ≤
      imageSum S L (S.index 0 ![0, 0, 0]) :=
  lost_of_split S hS L len y h [] [] [![0, 1, 0], ![1, 0, 0], ![0, 1, 1], ![1, 0, 1], ![1, 1, 0],
    ![1, 1, 1]] ![0, 0, 0] ![0, 0, 1] rfl 0 (zero_mem_allOrders L) hi

/-! ## Reciprocity -/

/-- Source and receiver exchanged. -/
def Setup.swap (S : Setup) : Setup := { S with s := S.r, r := S.s }

/-- The order of the corresponding image. -/
def flipOrder (u l : Fin 3 → ℤ) : Fin 3 → ℤ := fun i => if u i = 0 then -l i else l i

theorem swap_distance (S : Setup) (l u : Fin 3 → ℤ) (hu : u ∈ patterns) :
    S.swap.distance (flipOrder u l) u = S.distance l u := by
  unfold Setup.distance Setup.swap flipOrder
  congr 1
  refine sum_congr rfl fun i _ => ?_
  have : u i = 0 ∨ u i = 1 := by
    have := Fintype.mem_piFinset.mp hu i
    simpa using this
  rcases this with h | h <;> simp [h] <;> ring

theorem swap_damping (S : Setup) (l u : Fin 3 → ℤ) : S.swap.damping (flipOrder u l) u = S.damping l u := by
  unfold Setup.damping Setup.swap flipOrder
  congr 1
  · refine prod_congr rfl fun i _ => ?_
    by_cases h : u i = 0
    · simp [h]
    · simp [h]
  · refine prod_congr rfl fun i _ => ?_
    by_cases h : u i = 0
    · simp [h]
    · simp [h]

theorem imageSum_swap (S : Setup) (L n : ℕ) : imageSum S.swap L n = imageSum S L n := by
  unfold imageSum
  rw [sum_comm, sum_comm (s := allOrders L)]
  refine sum_congr rfl fun u hu => ?_
  refine sum_nbij' (flipOrder u) (flipOrder u) ?_ ?_ ?_ ?_ ?_
  all_goals
    intro l hl
  · unfold allOrders at hl ⊢
    simp only [Fintype.mem_piFinset, mem_Icc] at hl ⊢
    intro i
    have := hl i
    unfold flipOrder
    split_ifs <;> omega
  · unfold allOrders at hl ⊢
    simp only [Fintype.mem_piFinset, mem_Icc] at hl ⊢
    intro i
    have := hl i
    unfold flipOrder
    split_ifs <;> omega
  · funext i
    unfold flipOrder
    split_ifs <;> simp
  · funext i
    unfold flipOrder
    split_ifs <;> simp
  · have hd := swap_distance S.swap l u hu
    have hm := swap_damping S.swap l u
    have e : S.swap.swap = S := rfl
    rw [e] at hd hm
    unfold Setup.index Setup.amplitude
    rw [hd, hm]
    rfl

/-- Exchanging source and receiver gives the same response, if no images coincide. -/
theorem C64_reciprocity_partial (S : Setup) (L len : ℕ) (h1 : NoCoincidence S L)
    (h2 : NoCoincidence S.swap L) (y z : List ℝ) (hy : generate S L len = .ok y)
    (hz : generate S.swap L len = .ok z) : y = z := by
  obtain ⟨a1, a2⟩ := C64_sum_partial S L len h1 y hy
  obtain ⟨b1, b2⟩ := C64_sum_partial S.swap L len h2 z hz
  refine List.ext_getElem (a1.trans b1.symm) fun n hn hn' => ?_
  have := a2 n (a1 ▸ hn)
  rw [← imageSum_swap, ← b2 n (a1 ▸ hn), List.getD_eq_getElem _ _ hn,
    List.getD_eq_getElem _ _ hn'] at this
  exact this

/-! ## The direct sound comes first -/

theorem image_farther (D s r : ℝ) (hs : 0 < s ∧ s < D) (hr : 0 < r ∧ r < D) (l u : ℤ)
    (hu : u = 0 ∨ u = 1) : (s - r) ^ 2 ≤ ((1 - 2 * u) * s + 2 * l * D - r) ^ 2 := by
  apply sq_le_sq.mpr
  have hsr : |s - r| < D := abs_lt.mpr ⟨by linarith [hs.1, hr.2], by linarith [hs.2, hr.1]⟩
  have hD : 0 < D := hs.1.trans hs.2
  rcases hu with rfl | rfl
  · rcases eq_or_ne l 0 with rfl | hl
    · simp
    · have h1 : (1 : ℝ) ≤ |(l : ℝ)| := by
        exact_mod_cast Int.one_le_abs hl
      have h2 : |2 * (l : ℝ) * D| = 2 * |(l : ℝ)| * D := by
        rw [abs_mul, abs_mul, abs_of_pos hD]
        norm_num
      have h3 := abs_sub_abs_le_abs_sub (2 * (l : ℝ) * D) (-(s - r))
      rw [abs_neg, h2] at h3
      have e : (1 - 2 * ((0 : ℤ) : ℝ)) * s + 2 * l * D - r = 2 * l * D - -(s - r) := by
        push_cast; ring
      rw [e]
      nlinarith
  · have e : (1 - 2 * ((1 : ℤ) : ℝ)) * s + 2 * l * D - r = 2 * l * D - (s + r) := by
      push_cast; ring
    rw [e]
    rcases le_or_gt l 0 with hl | hl
    · have h1 : (l : ℝ) ≤ 0 := by exact_mod_cast hl
      have h2 : 2 * (l : ℝ) * D ≤ 0 := by nlinarith
      rw [abs_of_nonpos (by linarith [hs.1, hr.1] : 2 * (l : ℝ) * D - (s + r) ≤ 0)]
      exact abs_le.mpr ⟨by linarith [hs.1, hr.1], by linarith [hs.1, hr.1]⟩
    · have h1 : (1 : ℝ) ≤ l := by exact_mod_cast hl
      have h2 : 2 * D ≤ 2 * (l : ℝ) * D := by nlinarith
      refine le_trans ?_ (le_abs_self _)
      exact abs_le.mpr ⟨by linarith [hs.2, hr.2], by linarith [hs.2, hr.2]⟩

theorem index_ge (S : Setup) (hS : S.Proper) (l u : Fin 3 → ℤ) (hu : u ∈ patterns) :
    ⌊√(∑ i, (S.s i - S.r i) ^ 2) / 343 * S.sr + 0.5⌋₊ ≤ S.index l u := by
  unfold Setup.index
  apply Nat.floor_le_floor
  have : √(∑ i, (S.s i - S.r i) ^ 2) ≤ S.distance l u := by
    unfold Setup.distance
    refine Real.sqrt_le_sqrt (sum_le_sum fun i _ => ?_)
    refine image_farther _ _ _ (hS.s i) (hS.r i) _ _ ?_
    have := Fintype.mem_piFinset.mp hu i
    simpa using this
  have := hS.sr
  gcongr

/-- Nothing arrives before the direct sound. -/
theorem C64_direct_first (S : Setup) (hS : S.Proper) (L len : ℕ) (y : List ℝ)
    (h : generate S L len = .ok y) (n : ℕ)
    (hn : n < ⌊√(∑ i, (S.s i - S.r i) ^ 2) / 343 * S.sr + 0.5⌋₊) : y.getD n 0 = 0 := by
  obtain ⟨h1, -, h3⟩ := generate_ok S L len y h
  by_cases hlen : n < len
  · rw [h3 n hlen]
    refine sum_eq_zero fun l _ => lastVal_nomatch _ _ fun p hp => ?_
    obtain ⟨u, hu, rfl⟩ := List.mem_map.mp hp
    have := index_ge S hS l u ((mem_uVectors u).mp hu)
    dsimp only
    omega
  · rw [List.getD_eq_default _ _ (by omega)]

/-! ## Rooms for which nothing can be computed -/

/-- In every room at least six times as long as wide, whose reverberation is not shorter than the
time the sound needs for its length, the automatic order produces images later than the end of the
response: IndexError, for all source and receiver positions and all sampling rates. -/
theorem C64_long_room_raises (S : Setup) (hS : S.Proper) (rt : ℝ) (h6 : 6 * S.dims 1 ≤ S.dims 0)
    (hrt : S.dims 0 ≤ 343 * (rt * 1.1)) :
    generate S (limit rt S.dims none) (rirLength rt S.sr) = .error .indexError := by
  have hX := hS.dims 0
  have hY := hS.dims 1
  set L := limit rt S.dims none with hL
  have hct : 0 < 343 * (rt * 1.1) := lt_of_lt_of_le hX hrt
  -- the order
  have hLge : 343 * (rt * 1.1) / 2 / S.dims 1 ≤ (L : ℝ) := by
    refine le_trans ?_ (Nat.le_ceil _)
    refine Real.le_sqrt_of_sq_le ?_
    exact single_le_sum (f := fun i => (343 * (rt * 1.1) / 2 / S.dims i) ^ 2)
      (fun i _ => sq_nonneg _) (mem_univ 1)
  have h2LX : 6 * (343 * (rt * 1.1)) ≤ 2 * (L : ℝ) * S.dims 0 := by
    rw [div_div, div_le_iff₀ (by positivity)] at hLge
    have : (0 : ℝ) ≤ L := Nat.cast_nonneg L
    nlinarith
  -- the image
  set l : Fin 3 → ℤ := ![(L : ℤ), 0, 0] with hl
  have hlm : l ∈ allOrders L := by
    unfold allOrders
    rw [Fintype.mem_piFinset]
    intro i
    fin_cases i <;> simp [hl]
  have hidx : rirLength rt S.sr ≤ S.index l ![0, 0, 0] := by
    unfold rirLength Setup.index
    apply Nat.floor_le_floor
    have hd : 5 * (343 * (rt * 1.1)) ≤ S.distance l ![0, 0, 0] := by
      unfold Setup.distance
      refine Real.le_sqrt_of_sq_le (le_trans ?_ (single_le_sum
        (f := fun i => ((1 - 2 * ((![0, 0, 0] : Fin 3 → ℤ) i : ℝ)) * S.s i +
          2 * (l i : ℝ) * S.dims i - S.r i) ^ 2) (fun i _ => sq_nonneg _) (mem_univ 0)))
      refine pow_le_pow_left₀ (by linarith) ?_ 2
      simp [hl]
      linarith [(hS.s 0).1, (hS.r 0).2]
    have hsr := hS.sr
    have : rt * 1.1 * 5 ≤ S.distance l ![0, 0, 0] / 343 := by
      rw [le_div_iff₀ (by norm_num)]
      linarith
    have := mul_le_mul_of_nonneg_right this hsr.le
    linarith
  cases hg : generate S L (rirLength rt S.sr) with
  | ok y =>
    have := (generate_ok S L _ y hg).2.1 l hlm ![0, 0, 0] (by decide)
    omega
  | error e =>
    congr 1
    have : ∀ (ls : List (Fin 3 → ℤ)) (x : List ℝ),
        ls.foldlM (fun x l => fancyAdd x (S.values l)) x = .error e → e = .indexError := by
      intro ls
      induction ls with
      | nil => intro x hx; cases hx
      | cons l ls ih =>
        intro x hx
        rw [List.foldlM_cons] at hx
        cases h1 : fancyAdd x (S.values l) with
        | ok z => rw [h1] at hx; exact ih z hx
        | error e' =>
          rw [h1] at hx
          cases hx
          unfold fancyAdd at h1
          split_ifs at h1
          cases h1
          rfl
    exact this _ _ hg

/-- For instance a corridor of 20 m by 3 m by 2.5 m with a reverberation time of 1 s. -/
example : ∃ S : Setup, S.Proper ∧
    generate S (limit 1 S.dims none) (rirLength 1 S.sr) = .error .indexError := by
  have hp : (⟨![20, 3, 2.5], ![1, 1, 1], ![18, 2, 1], fun _ => 0.9, fun _ => 0.9, 48000⟩ :
      Setup).Proper := by
    refine ⟨?_, ?_, ?_, ?_, fun _ => by norm_num, fun _ => by norm_num, by norm_num⟩
    · intro i; fin_cases i <;> norm_num
    · intro i; fin_cases i <;> norm_num
    · intro i; fin_cases i <;> norm_num
    · intro h; have := congrFun h 0; norm_num at this
  exact ⟨_, hp, C64_long_room_raises _ hp 1 (by norm_num) (by norm_num)⟩

/-! ## Analytical transfer function -/

/-- The analytical transfer function is the same with source and receiver exchanged, also with the
damping of each mode taken from the nearest octave band. -/
theorem C64_transfer_reciprocal (dims s r : Fin 3 → ℝ) (c : ℝ) (eta : ℝ → ℝ) (N : ℕ) (f : ℝ) :
    transferFunction dims s r c eta N f = transferFunction dims r s c eta N f := by
  unfold transferFunction
  congr 1
  congr 1
  refine List.map_congr_left fun n _ => ?_
  have h : ∏ i, (Real.cos (waveNumber dims ![n.1, n.2.1, n.2.2] i * s i) *
      Real.cos (waveNumber dims ![n.1, n.2.1, n.2.2] i * r i)) =
    ∏ i, (Real.cos (waveNumber dims ![n.1, n.2.1, n.2.2] i * r i) *
      Real.cos (waveNumber dims ![n.1, n.2.1, n.2.2] i * s i)) :=
    prod_congr rfl fun i _ => mul_comm _ _
  unfold modeTerm
  dsimp only
  rw [h]

/-- It is symmetric under mirroring both positions at the middle of the room. -/
theorem C64_transfer_mirror (dims s r : Fin 3 → ℝ) (hd : ∀ i, dims i ≠ 0) (c : ℝ) (eta : ℝ → ℝ)
    (N : ℕ) (f : ℝ) :
    transferFunction dims (fun i => dims i - s i) (fun i => dims i - r i) c eta N f =
      transferFunction dims s r c eta N f := by
  have key : ∀ (n : ℕ) (d x : ℝ), d ≠ 0 →
      Real.cos (n / d * Real.pi * (d - x)) = (-1) ^ n * Real.cos (n / d * Real.pi * x) := by
    intro n d x hd
    rw [show (n : ℝ) / d * Real.pi * (d - x) = n * Real.pi - n / d * Real.pi * x by field_simp,
      Real.cos_nat_mul_pi_sub]
  unfold transferFunction
  congr 1
  congr 1
  refine List.map_congr_left fun n _ => ?_
  have h : ∏ i, (Real.cos (waveNumber dims ![n.1, n.2.1, n.2.2] i * (dims i - s i)) *
      Real.cos (waveNumber dims ![n.1, n.2.1, n.2.2] i * (dims i - r i))) =
    ∏ i, (Real.cos (waveNumber dims ![n.1, n.2.1, n.2.2] i * s i) *
      Real.cos (waveNumber dims ![n.1, n.2.1, n.2.2] i * r i)) := by
    refine prod_congr rfl fun i _ => ?_
    unfold waveNumber
    rw [key _ _ _ (hd i), key _ _ _ (hd i), mul_mul_mul_comm, ← pow_add, Even.neg_one_pow ⟨_, rfl⟩,
      one_mul]
  unfold modeTerm
  dsimp only
  rw [h]

/-! ## Walls -/

/-- The coordinate axis a wall is perpendicular to: its area is the product of the other two
dimensions (see `wallArea`, used for the absorption area). -/
def Wall.axis : Wall → Fin 3
  | .east | .west => 0
  | .south | .north => 1
  | .floor | .ceiling => 2

theorem axis_area (d : Fin 3 → ℝ) (w : Wall) :
    wallArea (d 0) (d 1) (d 2) w * d w.axis = d 0 * d 1 * d 2 := by
  cases w <;> simp only [wallArea, Wall.axis] <;> ring

/-- Absorption coefficients in the order north, south, east, west, floor, ceiling. -/
def alphaList (a : Wall → ℝ) : List ℝ :=
  [a .north, a .south, a .east, a .west, a .floor, a .ceiling]

/-- Floor and ceiling are used for the vertical axis, and the walls in the origin for `b1`
(missing: the other two axes). -/
theorem C64_walls_partial (a : Wall → ℝ) (b : (Fin 3 → ℝ) × (Fin 3 → ℝ))
    (h : reflection (alphaList a) = .ok b) :
    b.1 Wall.floor.axis = √(1 - a .floor) ∧ b.2 Wall.ceiling.axis = √(1 - a .ceiling) := by
  cases h
  exact ⟨rfl, rfl⟩

/-- South and north on the one hand, west and east on the other hand are exchanged: the reflection
factors of the walls perpendicular to the x axis are the ones of the walls perpendicular to the y
axis, and the other way round. -/
theorem C64_walls_exchanged (a : Wall → ℝ) (b : (Fin 3 → ℝ) × (Fin 3 → ℝ))
    (h : reflection (alphaList a) = .ok b) :
    b.1 Wall.west.axis = √(1 - a .south) ∧ b.2 Wall.east.axis = √(1 - a .north) ∧
      b.1 Wall.south.axis = √(1 - a .west) ∧ b.2 Wall.north.axis = √(1 - a .east) := by
  cases h
  exact ⟨rfl, rfl, rfl, rfl⟩

/-! ## Values of the contributions -/

/-- Position of the image source of order `l` and pattern `u`. -/
def imagePosition (dims s : Fin 3 → ℝ) (l u : Fin 3 → ℤ) (i : Fin 3) : ℝ :=
  2 * l i * dims i + (if u i = 1 then -s i else s i)

/-- Every image contributes with the spherical spreading of its distance from the receiver and with
the reflection factors of the walls it was mirrored at: the wall in the origin `|l - u|` times, the
opposite one `|l|` times. -/
theorem C64_spreading (S : Setup) (l u : Fin 3 → ℤ) (hu : ∀ i, u i = 0 ∨ u i = 1)
    (hd : 0 < ∑ i, (imagePosition S.dims S.s l u i - S.r i) ^ 2) :
    S.amplitude l u * (4 * Real.pi * √(∑ i, (imagePosition S.dims S.s l u i - S.r i) ^ 2)) =
      ∏ i, S.b1 i ^ (l i - u i).natAbs * S.b2 i ^ (l i).natAbs := by
  have hdist : S.distance l u = √(∑ i, (imagePosition S.dims S.s l u i - S.r i) ^ 2) := by
    unfold Setup.distance imagePosition
    congr 1
    refine sum_congr rfl fun i _ => ?_
    rcases hu i with h | h <;> rw [h] <;> norm_num <;> ring
  unfold Setup.amplitude
  rw [hdist, prod_mul_distrib]
  have := Real.sqrt_pos.2 hd
  have := Real.pi_pos
  unfold Setup.damping
  field_simp

/-- The order of the images is the smaller one of the requested order and the automatic one; the
automatic one is the least integer not below the length of the vector of room lengths the sound
travels forth and back in 1.1 times the reverberation time. -/
theorem C64_order (rt : ℝ) (dims : Fin 3 → ℝ) (m : ℕ) :
    limit rt dims (some m) = min (limit rt dims none) m ∧
      √(∑ i, (343 * (1.1 * rt) / (2 * dims i)) ^ 2) ≤ limit rt dims none ∧
      (0 < limit rt dims none →
        (limit rt dims none : ℝ) < √(∑ i, (343 * (1.1 * rt) / (2 * dims i)) ^ 2) + 1) := by
  have he : √(∑ i, (343 * (rt * 1.1) / 2 / dims i) ^ 2) =
      √(∑ i, (343 * (1.1 * rt) / (2 * dims i)) ^ 2) := by
    congr 1
    refine sum_congr rfl fun i _ => ?_
    rw [div_div, mul_comm rt]
  unfold limit
  dsimp only
  rw [he]
  refine ⟨?_, Nat.le_ceil _, fun _ => Nat.ceil_lt_add_one (Real.sqrt_nonneg _)⟩
  split_ifs with h
  · rw [min_eq_left h.le]
  · rw [min_eq_right (not_lt.1 h)]

/-- Shape of the mode `n` of a room with rigid walls at the point `x`. -/
noncomputable def modeShape (dims : Fin 3 → ℝ) (n : Fin 3 → ℕ) (x : Fin 3 → ℝ) : ℝ :=
  ∏ i, Real.cos (n i * Real.pi * x i / dims i)

/-- Integral of the squared shape over the room. -/
noncomputable def modeNorm (dims : Fin 3 → ℝ) (n : Fin 3 → ℕ) : ℝ :=
  ∏ i, if n i = 0 then dims i else dims i / 2

theorem modeOrders_spec (N : ℕ) : (modeOrders N).Nodup ∧
    ∀ n, n ∈ modeOrders N ↔ n ≠ (0, 0, 0) ∧ n.1 ≤ N ∧ n.2.1 ≤ N ∧ n.2.2 ≤ N := by
  obtain ⟨l, hl⟩ := allOrders_head N
  have ho : modeOrders N = l := by
    unfold modeOrders
    rw [hl]
    rfl
  have hnd := allOrders_nodup N
  rw [hl, List.nodup_cons] at hnd
  rw [ho]
  refine ⟨hnd.2, fun n => ?_⟩
  have := mem_modeOrders N n
  rw [hl, List.mem_cons] at this
  constructor
  · intro h
    exact ⟨fun h0 => hnd.1 (h0 ▸ h), this.mp (Or.inr h)⟩
  · rintro ⟨h0, h⟩
    exact (this.mpr h).resolve_left h0

/-- The analytical transfer function is the modal expansion: every mode up to the maximum order
except the constant one contributes the product of its shapes at source and receiver, divided by its
norm and by `ω_n² + 2 i η ω_n - ω²`, with `ω_n = c |k_n|`, times `c²`. -/
theorem C64_modal_expansion (dims s r : Fin 3 → ℝ) (hd : ∀ i, dims i ≠ 0) (c : ℝ) (eta : ℝ → ℝ)
    (N : ℕ) (f : ℝ) :
    transferFunction dims s r c eta N f =
      ∑ o ∈ (range (N + 1) ×ˢ range (N + 1) ×ˢ range (N + 1)).erase (0, 0, 0),
        let n : Fin 3 → ℕ := ![o.1, o.2.1, o.2.2]
        let w : ℝ := c * √(∑ i, (n i * Real.pi / dims i) ^ 2)
        (c : ℂ) ^ 2 * (modeShape dims n s * modeShape dims n r / modeNorm dims n : ℝ) /
          (w ^ 2 + 2 * Complex.I * eta (w / (2 * Real.pi)) * w - (2 * Real.pi * f) ^ 2) := by
  obtain ⟨hnd, hmem⟩ := modeOrders_spec N
  have hset : (range (N + 1) ×ˢ range (N + 1) ×ˢ range (N + 1)).erase (0, 0, 0) =
      (modeOrders N).toFinset := by
    ext n
    rw [List.mem_toFinset, hmem, mem_erase, mem_product, mem_product, mem_range, mem_range,
      mem_range, Nat.lt_succ_iff, Nat.lt_succ_iff, Nat.lt_succ_iff]
  rw [hset, List.sum_toFinset _ hnd]
  unfold transferFunction
  rw [← List.sum_map_mul_right]
  congr 1
  refine List.map_congr_left fun o ho => ?_
  have hne : o ≠ (0, 0, 0) := ((hmem o).1 ho).1
  obtain ⟨a, b, d⟩ := o
  unfold modeTerm modeShape modeNorm waveNumber
  dsimp only
  have hk : ∀ i, ((![a, b, d] : Fin 3 → ℕ) i : ℝ) / dims i * Real.pi =
      (![a, b, d] : Fin 3 → ℕ) i * Real.pi / dims i := fun i => by ring
  simp only [hk]
  have hk2 : ∀ (x : Fin 3 → ℝ) i, ((![a, b, d] : Fin 3 → ℕ) i : ℝ) * Real.pi / dims i * x i =
      (![a, b, d] : Fin 3 → ℕ) i * Real.pi * x i / dims i := fun x i => by ring
  simp only [hk2, div_div, prod_mul_distrib]
  generalize (∏ i, Real.cos (((![a, b, d] : Fin 3 → ℕ) i : ℝ) * Real.pi * s i / dims i)) = P
  generalize (∏ i, Real.cos (((![a, b, d] : Fin 3 → ℕ) i : ℝ) * Real.pi * r i / dims i)) = Q
  generalize (c * √(∑ i, (((![a, b, d] : Fin 3 → ℕ) i : ℝ) * Real.pi / dims i) ^ 2)) = w
  generalize ((w : ℂ) ^ 2 + 2 * Complex.I * (eta (w / (2 * Real.pi)) : ℂ) * w -
    (2 * Real.pi * f) ^ 2) = den
  have d0 := hd 0
  have d1 := hd 1
  have d2 := hd 2
  have d0' : (dims 0 : ℂ) ≠ 0 := by exact_mod_cast d0
  have d1' : (dims 1 : ℂ) ≠ 0 := by exact_mod_cast d1
  have d2' : (dims 2 : ℂ) ≠ 0 := by exact_mod_cast d2
  have hcard : (univ.filter fun i => (![a, b, d] : Fin 3 → ℕ) i ≠ 0).card =
      (if a = 0 then 0 else 1) + (if b = 0 then 0 else 1) + (if d = 0 then 0 else 1) := by
    rw [card_filter, Fin.sum_univ_three]
    by_cases ha : a = 0 <;> by_cases hb : b = 0 <;> by_cases hd : d = 0 <;> simp [ha, hb, hd]
  rw [hcard, Fin.prod_univ_three, Fin.prod_univ_three]
  by_cases ha : a = 0 <;> by_cases hb : b = 0 <;> by_cases hd : d = 0 <;>
    simp [ha, hb, hd] at hne ⊢ <;> (by_cases hden : den = 0 <;> [simp [hden]; (field_simp; try ring)])

end Verif.Room
