import Verif.Lemmas.AR

/-! Lemmas about Burg's method. -/

set_option linter.unusedSectionVars false

namespace Verif.AR

variable {K : Type} [Field K] [LinearOrder K]

/-- Energy of a list. -/
def sq (l : List K) : K := (l.map fun u => u ^ 2).sum

/-- Inner product of lists. -/
def ip (a b : List K) : K := (List.zipWith (· * ·) a b).sum

theorem length_axpy (k : K) {a b : List K} (h : a.length = b.length) :
    (axpy a k b).length = a.length := by
  simp [axpy, h]

theorem sq_axpy (k : K) : ∀ a b : List K, a.length = b.length →
    sq (axpy a k b) = sq a + 2 * k * ip a b + k ^ 2 * sq b
  | [], [], _ => by simp [sq, axpy, ip]
  | u :: a, v :: b, h => by
    have ih := sq_axpy k a b (by simpa using h)
    simp only [sq, axpy, ip, List.zipWith_cons_cons, List.map_cons, List.sum_cons] at ih ⊢
    rw [ih]
    ring
  | [], _ :: _, h => by simp at h
  | _ :: _, [], h => by simp at h

theorem ip_comm : ∀ a b : List K, ip a b = ip b a
  | [], [] => rfl
  | u :: a, v :: b => by
    have ih := ip_comm a b
    simp only [ip, List.zipWith_cons_cons, List.sum_cons] at ih ⊢
    rw [ih]
    ring
  | [], _ :: _ => rfl
  | _ :: _, [] => rfl

theorem sum_zip_sq : ∀ a b : List K, a.length = b.length →
    (List.zipWith (fun u v => u ^ 2 + v ^ 2) a b).sum = sq a + sq b
  | [], [], _ => by simp [sq]
  | u :: a, v :: b, h => by
    have ih := sum_zip_sq a b (by simpa using h)
    simp only [sq, List.zipWith_cons_cons, List.map_cons, List.sum_cons] at ih ⊢
    rw [ih]
    ring
  | [], _ :: _, h => by simp at h
  | _ :: _, [], h => by simp at h

theorem sq_drop_one (l : List K) (f0 : K) (h : l.head? = some f0) :
    sq l = sq (l.drop 1) + f0 ^ 2 := by
  cases l with
  | nil => simp at h
  | cons u l =>
    have : u = f0 := by simpa using h
    subst this
    simp [sq]
    ring

theorem sq_take (l : List K) (b0 : K) (h : l.getLast? = some b0) :
    sq l = sq (l.take (l.length - 1)) + b0 ^ 2 := by
  have hne : l ≠ [] := by
    rintro rfl
    simp at h
  have hlast : l.getLast hne = b0 := by
    rw [List.getLast?_eq_getLast_of_ne_nil hne] at h
    exact Option.some.inj h
  have hsplit := List.dropLast_concat_getLast hne
  have : l.take (l.length - 1) = l.dropLast := List.dropLast_eq_take.symm
  rw [this]
  conv_lhs => rw [← hsplit, hlast]
  simp [sq]

section Ordered
variable [IsStrictOrderedRing K]

theorem sq_nonneg' (l : List K) : 0 ≤ sq l := by
  unfold sq
  refine List.sum_nonneg ?_
  intro y hy
  obtain ⟨u, -, rfl⟩ := List.mem_map.mp hy
  exact sq_nonneg u

theorem ip_bound (a b : List K) (h : a.length = b.length) :
    2 * ip a b ≤ sq a + sq b ∧ -(sq a + sq b) ≤ 2 * ip a b := by
  have h1 := sq_nonneg' (axpy a 1 b)
  have h2 := sq_nonneg' (axpy a (-1) b)
  rw [sq_axpy _ _ _ h] at h1 h2
  constructor <;> linarith

end Ordered

/-- One pass of the update of the coefficients. -/
theorem burg_coeff (prev old : ℕ → K) (k : K) (i : ℕ) : ∀ t ≤ i + 1, ∀ j,
    (List.range t).foldl (fun ar j' => Function.update ar (j' + 1)
      (prev (j' + 1) + k * prev (i + 1 - (j' + 1)))) old j =
      if 1 ≤ j ∧ j ≤ t then prev j + k * prev (i + 1 - j) else old j
  | 0, _, j => by rw [if_neg (by omega)]; rfl
  | t + 1, ht, j => by
    rw [List.range_succ, List.foldl_append]
    simp only [List.foldl_cons, List.foldl_nil]
    by_cases hj : j = t + 1
    · rw [hj, Function.update_self, if_pos (by omega)]
    · rw [Function.update_of_ne hj, burg_coeff prev old k i t (by omega)]
      by_cases hc : 1 ≤ j ∧ j ≤ t
      · rw [if_pos hc, if_pos (by omega)]
      · rw [if_neg hc, if_neg (by omega)]

theorem burgStep_ok_iff (eps : K) (s s' : BurgState K) (i : ℕ) :
    burgStep eps s i = .ok s' ↔ ∃ bl f0,
      (axpy s.b (reflection eps s) s.f).getLast? = some bl ∧
      (axpy s.f (reflection eps s) s.b).head? = some f0 ∧
      s' = ⟨(List.range (i + 1)).foldl (fun ar j' => Function.update ar (j' + 1)
          (s.ar (j' + 1) + reflection eps s * s.ar (i + 1 - (j' + 1)))) s.prev, s.ar,
        (axpy s.f (reflection eps s) s.b).drop 1,
        (axpy s.b (reflection eps s) s.f).take ((axpy s.b (reflection eps s) s.f).length - 1),
        (1 - reflection eps s ^ 2) * s.den - bl ^ 2 - f0 ^ 2⟩ := by
  unfold burgStep
  simp only
  cases hb : (axpy s.b (reflection eps s) s.f).getLast? with
  | none => simp
  | some bl =>
    cases hf : (axpy s.f (reflection eps s) s.b).head? with
    | none => simp
    | some f0 =>
      constructor
      · intro h
        exact ⟨bl, f0, rfl, rfl, (Except.ok.inj h).symm⟩
      · rintro ⟨bl', f0', h1, h2, h3⟩
        have e1 : bl = bl' := by simpa using h1
        have e2 : f0 = f0' := by simpa using h2
        subst e1 e2
        rw [h3]

theorem burgRun_succ (eps : K) (x : List K) (n : ℕ) :
    burgRun eps x (n + 1) = (burgRun eps x n).bind fun s => burgStep eps s n := by
  unfold burgRun
  rw [List.range_succ, List.foldlM_append]
  simp only [List.foldlM_cons, List.foldlM_nil]
  cases (List.range n).foldlM (burgStep eps) (burgInit x) with
  | error e => rfl
  | ok s =>
    show (burgStep eps s n >>= pure) = burgStep eps s n
    cases burgStep eps s n <;> rfl

theorem burgRun_ind {eps : K} {x : List K} (P : ℕ → BurgState K → Prop)
    (h0 : P 0 (burgInit x))
    (hs : ∀ n s s', P n s → burgStep eps s n = .ok s' → P (n + 1) s') :
    ∀ n s, burgRun eps x n = .ok s → P n s
  | 0, s, h => by
    have : s = burgInit x := (Except.ok.inj h).symm
    rw [this]
    exact h0
  | n + 1, s, h => by
    rw [burgRun_succ] at h
    cases hl : burgRun eps x n with
    | error e => rw [hl] at h; exact absurd h (by simp [Except.bind])
    | ok s0 =>
      rw [hl] at h
      exact hs n s0 s (burgRun_ind P h0 hs n s0 hl) h

/-- Lengths of the prediction errors. -/
theorem burg_lengths (eps : K) (x : List K) : ∀ n s, burgRun eps x n = .ok s →
    s.f.length = x.length - 1 - n ∧ s.b.length = x.length - 1 - n := by
  refine burgRun_ind (fun n s => s.f.length = x.length - 1 - n ∧ s.b.length = x.length - 1 - n)
    ?_ ?_
  · constructor <;> simp [burgInit]
  · intro n s s' ⟨h1, h2⟩ h
    obtain ⟨bl, f0, -, -, rfl⟩ := (burgStep_ok_iff eps s s' n).mp h
    have e1 := length_axpy (reflection eps s) (h1.trans h2.symm)
    have e2 := length_axpy (reflection eps s) (h2.trans h1.symm)
    constructor
    · simp only [List.length_drop]
      omega
    · simp only [List.length_take]
      omega

/-- The run raises exactly when the prediction errors run out. -/
theorem burgRun_total (eps : K) (x : List K) (n : ℕ) (hn : n < x.length ∨ n = 0) :
    ∃ s, burgRun eps x n = .ok s := by
  induction n with
  | zero => exact ⟨_, rfl⟩
  | succ n ih =>
    obtain ⟨s, hs⟩ := ih (by omega)
    obtain ⟨h1, h2⟩ := burg_lengths eps x n s hs
    have e1 := length_axpy (reflection eps s) (h1.trans h2.symm)
    have e2 := length_axpy (reflection eps s) (h2.trans h1.symm)
    have n1 : axpy s.f (reflection eps s) s.b ≠ [] := List.ne_nil_of_length_pos (by omega)
    have n2 : axpy s.b (reflection eps s) s.f ≠ [] := List.ne_nil_of_length_pos (by omega)
    have key := (burgStep_ok_iff eps s _ n).mpr ⟨_, _, List.getLast?_eq_getLast_of_ne_nil n2,
      List.head?_eq_some_head n1, rfl⟩
    rw [burgRun_succ, hs]
    exact ⟨_, key⟩

theorem axpy_getD (k : K) (a b : List K) (h : a.length = b.length) (n : ℕ) :
    (axpy a k b).getD n 0 = a.getD n 0 + k * b.getD n 0 := by
  by_cases hn : n < a.length
  · have hb : n < b.length := h ▸ hn
    simp [axpy, List.getD_eq_getElem?_getD, hn, hb]
  · rw [List.getD_eq_default _ _ (by rw [length_axpy k h]; omega),
      List.getD_eq_default _ _ (by omega), List.getD_eq_default _ _ (by omega)]
    ring

end Verif.AR
