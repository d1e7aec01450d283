import Verif.Lemmas.StepUp
import Verif.Props.C26
import Verif.Props.C27
import Verif.Props.C139
import Verif.Props.C36Stable

/-!
# C26, C27, C139 (continued): the estimated models are stable

`Bank.StableDen a` says that `a₀ + a₁ w + a₂ w² + …`, `w = 1 / z`, has no zero with `|w| ≤ 1`, that
is, all poles of the model `1 / A(z)` are strictly inside the unit circle.
-/

namespace Verif.AR

open Bank (StableDen)

theorem loop_stable (c : ℕ → ℝ) (r0 : ℝ) (h0 : 0 ≤ r0) : ∀ n s, loop c r0 n = .ok s →
    StepInv (withOne s.1) n ∧ 0 ≤ s.2
  | 0, s, h => by
    have : s = (fun _ => 0, r0) := (Except.ok.inj h).symm
    subst this
    exact ⟨stepInv_zero _ rfl, h0⟩
  | n + 1, s, h => by
    rw [loop_succ] at h
    cases hl : loop c r0 n with
    | error e => rw [hl] at h; exact absurd h (by simp [Except.bind])
    | ok t =>
      rw [hl] at h
      obtain ⟨hinv, ht⟩ := loop_stable c r0 h0 n t hl
      have hz := (inv_loop r0 c n t hl).zero
      obtain ⟨h1, h2, h3⟩ := (step_ok_iff c n t s).1 h
      have hp : 0 < t.2 := lt_of_le_of_ne ht (Ne.symm h1)
      set k := -reflSum c t.1 n / t.2 with hk
      have h4 : 0 < t.2 * (1 - k ^ 2) := not_le.1 h2
      have h5 : 0 < 1 - k ^ 2 := pos_of_mul_pos_right h4 hp.le
      subst h3
      refine ⟨stepInv_succ (withOne t.1) _ n k ?_ hinv (hz n le_rfl)
        (step_withOne n k t.1 hz), h4.le⟩
      rw [abs_lt]
      constructor <;> nlinarith

theorem stableDen_range (A : ℕ → ℝ) (p m : ℕ) (a : List ℝ) (hl : a.length = m) (hm : p < m)
    (hv : ∀ j < m, a.getD j 0 = A j) (hz : ∀ j, p < j → A j = 0) (h : StepInv A p) : StableDen a := by
  intro w hw
  have h1 := (h w hw).1
  rw [hl]
  have e : ∑ j ∈ Finset.range m, (a.getD j 0 : ℂ) * w ^ j = forwardAt A p w := by
    unfold forwardAt
    symm
    apply Finset.sum_subset_zero_on_sdiff
    · intro j hj
      have := Finset.mem_range.1 hj
      exact Finset.mem_range.2 (by omega)
    · intro j hj
      have h2 := Finset.mem_range.1 (Finset.mem_sdiff.1 hj).1
      have h3 : p < j := by
        by_contra hc
        exact (Finset.mem_sdiff.1 hj).2 (Finset.mem_range.2 (by omega))
      rw [hv j h2, hz j h3]
      simp
    · intro j hj
      have := Finset.mem_range.1 hj
      rw [hv j (by omega)]
  rw [e]
  exact h1

/-- Whenever the recursion of Levinson and Durbin returns, for autocorrelation values of which the
first is not negative, all poles of the model are inside the unit circle. -/
theorem C26_stable (R a : List ℝ) (E : ℝ) (h0 : 0 ≤ R.getD 0 0) (h : levinson R = .ok (a, E)) :
    StableDen a := by
  cases R with
  | nil => exact absurd h (by simp [levinson])
  | cons r0 c =>
    simp only [levinson] at h
    cases hl : loop (fun j => c.getD j 0) r0 c.length with
    | error e => rw [hl] at h; exact absurd h (by simp)
    | ok s =>
      rw [hl] at h
      obtain ⟨ar, E'⟩ := s
      have h' := Except.ok.inj h
      rw [Prod.mk.injEq] at h'
      obtain ⟨ha, -⟩ := h'
      subst ha
      have hz := (inv_loop r0 _ _ _ hl).zero
      refine stableDen_range (withOne ar) c.length (c.length + 1) _ (by simp) (by omega) ?_ ?_
        (loop_stable _ r0 h0 _ _ hl).1
      · intro j hj
        cases j with
        | zero => rfl
        | succ j =>
          have : j < c.length := by omega
          simp [withOne, List.getD_eq_getElem?_getD, this]
      · intro j hj
        cases j with
        | zero => omega
        | succ j => exact hz j (by omega)

theorem autocorr_nonneg (x : List ℝ) : 0 ≤ autocorr x 0 := by
  unfold autocorr
  apply div_nonneg _ (Nat.cast_nonneg _)
  exact Finset.sum_nonneg fun n _ => mul_self_nonneg _

/-- The estimate of Yule and Walker from a signal is a stable model for every signal and order: the
model `b / A` has one absolutely summable impulse response, whose transform is `b / A` on and outside
the unit circle. -/
theorem C26_yule_walker_stable (x : List ℝ) (order : ℕ) (a : List ℝ) (E : ℝ)
    (h : yuleWalker x order = .ok (a, E)) : StableDen a ∧ ∀ b : List ℝ, ∃ g : ℕ → ℝ,
      (∀ n, 2 ≤ n → ∃ t, Bank.sequential [Bank.Filt.ba b a] (Bank.impulse n) = .ok t ∧
        t.HasShape n 1 ∧ ∀ k < n, t.sample k 0 = g k) ∧
      Bank.TransformIs g fun w => Bank.tfSequential Complex.ofReal w [Bank.Filt.ba b a] := by
  have hs : StableDen a := by
    refine C26_stable _ a E ?_ h
    by_cases hl : 0 < min (order + 1) x.length
    · rw [LFilter.getD_map_range, if_pos hl]
      exact autocorr_nonneg x
    · rw [LFilter.getD_map_range, if_neg hl]
  refine ⟨hs, fun b => (Bank.C36_stable_response [Bank.Filt.ba b a] ?_ ?_).1⟩
  · intro F hF
    rw [List.mem_singleton.1 hF]
    show a.getD 0 0 ≠ 0
    rw [(C26_yule_walker _ a E h).2.1]
    exact one_ne_zero
  · intro F hF
    rw [List.mem_singleton.1 hF]
    exact hs

/-- The reflection coefficients are strictly smaller than one. -/
theorem C27_reflection_strict (eps : ℝ) (heps : 0 < eps) (x : List ℝ) (n : ℕ) (s : BurgState ℝ)
    (h : burgRun eps x n = .ok s) : |reflection eps s| < 1 := by
  have hd := denInv_run eps heps x n s h
  obtain ⟨h1, h2, -⟩ := refl_eq eps heps s hd
  obtain ⟨h4, h5⟩ := ip_bound s.f s.b hd.1
  have h6 := hd.2
  rw [abs_lt]
  constructor
  · by_contra hc
    have hc' : reflection eps s ≤ -1 := not_lt.mp hc
    nlinarith
  · by_contra hc
    have hc' : 1 ≤ reflection eps s := not_lt.mp hc
    nlinarith

theorem burg_inv (eps : ℝ) (heps : 0 < eps) (x : List ℝ) : ∀ n s, burgRun eps x n = .ok s →
    StepInv s.ar n
  | 0, s, h => by
    have : s = burgInit x := (Except.ok.inj h).symm
    rw [this]
    exact stepInv_zero _ rfl
  | n + 1, s', h => by
    rw [burgRun_succ] at h
    cases hl : burgRun eps x n with
    | error e => rw [hl] at h; exact absurd h (by simp [Except.bind])
    | ok s =>
      rw [hl] at h
      have ih := burg_inv eps heps x n s hl
      have inv := coefInv_run eps x n s hl
      have hk := C27_reflection_strict eps heps x n s hl
      obtain ⟨bl, f0, -, -, rfl⟩ := (burgStep_ok_iff eps s s' n).mp h
      refine stepInv_succ s.ar _ n (reflection eps s) hk ih (inv.zero _ (by omega)) fun j hj => ?_
      dsimp only
      rw [burg_coeff s.ar s.prev (reflection eps s) n (n + 1) le_rfl]
      by_cases h0 : j = 0
      · rw [if_neg (by omega), h0, inv.one, inv.prevOne, inv.zero (n + 1 - 0) (by omega)]
        ring
      · rw [if_pos (by omega)]

/-- Burg's method always gives a stable model, for one or several channels. -/
theorem C27_stable (eps : ℝ) (heps : 0 < eps) (x : List ℝ) (order : ℕ) (multi : Bool) (a : List ℝ)
    (E : ℝ) (h : burg eps x order multi = .ok (a, E)) : StableDen a ∧ a.getD 0 0 = 1 := by
  unfold burg at h
  by_cases hc : (if multi then x.length + 1 else order + 1) < order + 1
  · rw [if_pos hc] at h
    exact absurd h (by simp)
  rw [if_neg hc] at h
  cases hr : burgRun eps x order with
  | error e => rw [hr] at h; exact absurd h (by simp)
  | ok s =>
    rw [hr] at h
    have h' := Except.ok.inj h
    rw [Prod.mk.injEq] at h'
    obtain ⟨ha, -⟩ := h'
    subst ha
    have inv := coefInv_run eps x order s hr
    constructor
    · refine stableDen_range s.ar order (if multi then x.length + 1 else order + 1) _ (by simp)
        (by omega) ?_ (fun j hj => inv.zero j hj) (burg_inv eps heps x order s hr)
      intro j hj
      rw [LFilter.getD_map_range, if_pos hj]
    · rw [LFilter.getD_map_range, if_pos (by omega), inv.one]

end Verif.AR

namespace Verif.Lpc

open Verif.AR
open Bank (StableDen)

theorem mapM_mem {α β : Type} (f : α → Except Err β) : ∀ (l : List α) (r : List β),
    l.mapM f = .ok r → ∀ y ∈ r, ∃ x ∈ l, f x = .ok y
  | [], r, h, y, hy => by
    have : r = [] := (Except.ok.inj h).symm
    rw [this] at hy
    simp at hy
  | x :: l, r, h, y, hy => by
    rw [List.mapM_cons] at h
    cases hx : f x with
    | error e => rw [hx] at h; simp [bind, Except.bind] at h
    | ok v =>
      cases hl : l.mapM f with
      | error e => rw [hx, hl] at h; simp [bind, Except.bind] at h
      | ok r' =>
        rw [hx, hl] at h
        have : r = v :: r' := (Except.ok.inj h).symm
        rw [this, List.mem_cons] at hy
        rcases hy with rfl | hy
        · exact ⟨x, by simp, hx⟩
        · obtain ⟨x', h1, h2⟩ := mapM_mem f l r' hl y hy
          exact ⟨x', List.mem_cons_of_mem _ h1, h2⟩

theorem frame_stable (eps : ℝ) (heps : 0 < eps) (order : ℕ) (b : Bool) (f a : List ℝ) (E : ℝ)
    (h : (if b then burgFrame eps order else ywFrame order) f = .ok (some (a, E))) :
    StableDen a ∧ a.getD 0 0 = 1 := by
  cases b with
  | true =>
    rw [if_pos rfl] at h
    unfold burgFrame at h
    cases hb : burg eps f order true with
    | error e => rw [hb] at h; exact absurd h (by simp)
    | ok r =>
      rw [hb] at h
      have : r = (a, E) := Option.some.inj (Except.ok.inj h)
      subst this
      exact C27_stable eps heps f order true a E hb
  | false =>
    rw [if_neg (by simp)] at h
    unfold ywFrame at h
    by_cases hc : f.length ≠ 1 ∧ f.length < order + 1
    · rw [if_pos hc] at h
      exact absurd h (by simp)
    rw [if_neg hc] at h
    dsimp only at h
    cases hl : levinson ((List.range (order + 1)).map fun lag =>
        autocorr f (if f.length = 1 then 0 else lag)) with
    | error e => rw [hl] at h; cases e <;> exact absurd h (by simp)
    | ok r =>
      rw [hl] at h
      have : r = (a, E) := Option.some.inj (Except.ok.inj h)
      subst this
      refine ⟨C26_stable _ a E ?_ hl, (C26_yule_walker _ a E hl).2.1⟩
      rw [LFilter.getD_map_range, if_pos (by omega)]
      simpa using autocorr_nonneg f

/-- All coefficients `lpc` returns, with either method, for every signal, window, order and step, are
those of a stable filter with leading coefficient 1 (or nan, for a silent frame). -/
theorem C139_stable (x w : List ℝ) (order : ℕ) (b : Bool) (hop : Option ℕ) (eps tiny : ℝ)
    (heps : 0 < eps) (g : ℕ → ℕ → ℝ) (l : List (Option (List ℝ × ℝ)))
    (h : lpc x w order false b hop eps tiny g = .ok (.coefficients l)) :
    ∀ a E, some (a, E) ∈ l → StableDen a ∧ a.getD 0 0 = 1 := by
  intro a E ha
  rw [lpc_unfold] at h
  cases hf : Framing.framed x w.length (stepOf w hop) true with
  | error e => rw [hf] at h; exact absurd h (by simp)
  | ok td =>
    rw [hf] at h
    dsimp only at h
    cases hm : (td.map (Framing.applyWindow w)).mapM
        (if b then burgFrame eps order else ywFrame order) with
    | error e => rw [hm] at h; exact absurd h (by simp)
    | ok r =>
      rw [hm] at h
      simp only [Bool.false_eq_true, if_false] at h
      have : r = l := by
        have := Except.ok.inj h
        injection this
      subst this
      obtain ⟨f, -, hf'⟩ := mapM_mem _ _ _ hm _ ha
      exact frame_stable eps heps order b f a E hf'

end Verif.Lpc

/-- Concrete case: the model of order one of a short signal. -/
example : ∃ a E, Verif.AR.yuleWalker ([1, 1] : List ℝ) 1 = .ok (a, E) ∧ Verif.Bank.StableDen a := by
  obtain ⟨a, E, h, -⟩ := Verif.AR.C26_never_aborts ([1, 1] : List ℝ) ⟨0, by simp⟩ 1 (by simp)
  exact ⟨a, E, h, (Verif.AR.C26_yule_walker_stable _ 1 a E h).1⟩

/-- Concrete case: the condition on the first value is needed. -/
example : Verif.AR.levinson ([-1, 2] : List ℝ) = .ok ([1, 2], 3) ∧
    ¬ Verif.Bank.StableDen [1, 2] := by
  constructor
  · simp [Verif.AR.levinson, Verif.AR.loop, Verif.AR.step, Verif.AR.reflSum, Verif.AR.newCoeffs, bind,
      Except.bind, pure, Except.pure]
    norm_num
  · intro h
    refine h (-1 / 2) (by simp; norm_num) ?_
    simp [Finset.sum_range_succ]
    norm_num
